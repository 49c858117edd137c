import Verif.Fit.Model
import Verif.Raster.Width
import Mathlib.Tactic.NormNum
import Mathlib.Tactic.FieldSimp

/-!
# What the fitness functions add up for a triangle
-/

namespace Verif.Fit

open Verif.Incr Verif.Raster Verif.Float

/-- A colour with channels in `[0, 1]`. -/
structure RGB.OK (c : RGB) : Prop where
  r0 : 0 ≤ c.r
  r1 : c.r ≤ 1
  g0 : 0 ≤ c.g
  g1 : c.g ≤ 1
  b0 : 0 ≤ c.b
  b1 : c.b ≤ 1

/-- Every pixel of the image has channels in `[0, 1]`. -/
def Img.OK (I : Img) : Prop := ∀ x y, x < I.w → y < I.h → (I.px x y).OK

theorem trunc_range {q : ℚ} {N : Int} (h0 : 0 ≤ q) (h1 : q ≤ N) : 0 ≤ trunc q ∧ trunc q ≤ N := by
  constructor
  · have := trunc_mono h0
    have h := trunc_int 0
    push_cast at h
    rwa [h] at this
  · have := trunc_mono h1
    rwa [trunc_int] at this

variable {fl : ℚ → ℚ}

theorem rnd_mul (R : Rnd 53 fl) {a b : ℚ} {N M : Int} (ha0 : 0 ≤ a) (ha : a ≤ N) (hb0 : 0 ≤ b) (hb : b ≤ M) (hN : 0 ≤ N) (hs : N * M ≤ 2 ^ 53) :
    0 ≤ fl (a * b) ∧ fl (a * b) ≤ (N * M : Int) := by
  have hM : (0 : ℚ) ≤ M := hb0.trans hb
  have hM' : 0 ≤ M := by exact_mod_cast hM
  refine ⟨R.nonneg (mul_nonneg ha0 hb0), R.le_int ?_ ?_⟩
  · rw [abs_of_nonneg (mul_nonneg hN hM')]; exact hs
  · push_cast
    exact mul_le_mul ha hb hb0 (ha0.trans ha)

theorem chan_range (R : Rnd 53 fl) {c : ℚ} (h0 : 0 ≤ c) (h1 : c ≤ 1) : 0 ≤ trunc (fl (c * 255)) ∧ trunc (fl (c * 255)) ≤ 255 := by
  have := rnd_mul R (a := c) (b := 255) (N := 1) (M := 255) h0 (by simpa using h1) (by norm_num) (by norm_num) (by norm_num) (by norm_num)
  exact trunc_range this.1 (by simpa using this.2)

theorem u8_chan (R : Rnd 53 fl) {c : ℚ} (h0 : 0 ≤ c) (h1 : c ≤ 1) : u8 (fl (c * 255)) = trunc (fl (c * 255)) := by
  have := chan_range R h0 h1
  unfold u8; omega

theorem u16_chan (R : Rnd 53 fl) {c : ℚ} (h0 : 0 ≤ c) (h1 : c ≤ 1) : u16 (fl (c * 255)) = trunc (fl (c * 255)) := by
  have := chan_range R h0 h1
  unfold u16; omega

theorem sqTerm_range (R : Rnd 53 fl) {c : ℚ} (h0 : 0 ≤ c) (h1 : c ≤ 1) : 0 ≤ sqTerm fl c ∧ sqTerm fl c ≤ 65025 := by
  unfold sqTerm
  have a := rnd_mul R (a := c) (b := 255) (N := 1) (M := 255) h0 (by simpa using h1) (by norm_num) (by norm_num) (by norm_num) (by norm_num)
  have b := rnd_mul R (a := fl (c * 255)) (b := c) (N := 255) (M := 1) a.1 (by simpa using a.2) h0 (by simpa using h1) (by norm_num) (by norm_num)
  have d := rnd_mul R (a := fl (fl (c * 255) * c)) (b := 255) (N := 255) (M := 255) b.1 (by simpa using b.2) (by norm_num) (by norm_num) (by norm_num) (by norm_num)
  exact ⟨d.1, by simpa using d.2⟩

theorem sqSum_range (R : Rnd 53 fl) {c : RGB} (h : c.OK) : 0 ≤ sqSum fl c ∧ sqSum fl c ≤ 195075 := by
  have a := sqTerm_range R h.r0 h.r1
  have b := sqTerm_range R h.g0 h.g1
  have d := sqTerm_range R h.b0 h.b1
  unfold sqSum
  have e0 : 0 ≤ fl (sqTerm fl c.r + sqTerm fl c.g) := R.nonneg (by linarith)
  have e1 : fl (sqTerm fl c.r + sqTerm fl c.g) ≤ (130050 : Int) := R.le_int (by norm_num) (by push_cast; linarith)
  push_cast at e1
  refine ⟨R.nonneg (by linarith), ?_⟩
  have : fl (fl (sqTerm fl c.r + sqTerm fl c.g) + sqTerm fl c.b) ≤ (195075 : Int) := R.le_int (by norm_num) (by push_cast; linarith)
  simpa using this

theorem sq_range (R : Rnd 53 fl) {c : RGB} (h : c.OK) : u32 (sqSum fl c) = trunc (sqSum fl c) ∧ 0 ≤ trunc (sqSum fl c) ∧ trunc (sqSum fl c) ≤ 195075 := by
  have a := sqSum_range R h
  have := trunc_range a.1 (N := 195075) (by simpa using a.2)
  exact ⟨by unfold u32; omega, this⟩

/-- The stored values of a pixel, without the conversions to small integers. -/
def rawPixel (fl : ℚ → ℚ) (c : RGB) : Pixel :=
  ⟨trunc (fl (c.r * 255)), trunc (fl (c.g * 255)), trunc (fl (c.b * 255)), trunc (sqSum fl c)⟩

theorem mkPixel_raw (R : Rnd 53 fl) {c : RGB} (h : c.OK) : mkPixel fl c = rawPixel fl c := by
  unfold mkPixel rawPixel
  rw [u8_chan R h.r0 h.r1, u8_chan R h.g0 h.g1, u8_chan R h.b0 h.b1, (sq_range R h).1]

/-- Bounds of the components of a sum of `k` pixels. -/
structure Pixel.Upto (p : Pixel) (k : Int) : Prop where
  r0 : 0 ≤ p.r
  r1 : p.r ≤ 255 * k
  g0 : 0 ≤ p.g
  g1 : p.g ≤ 255 * k
  b0 : 0 ≤ p.b
  b1 : p.b ≤ 255 * k
  q0 : 0 ≤ p.sq
  q1 : p.sq ≤ 195075 * k

theorem rawPixel_upto (R : Rnd 53 fl) {c : RGB} (h : c.OK) : (rawPixel fl c).Upto 1 :=
  ⟨(chan_range R h.r0 h.r1).1, by simpa [rawPixel] using (chan_range R h.r0 h.r1).2, (chan_range R h.g0 h.g1).1, by simpa [rawPixel] using (chan_range R h.g0 h.g1).2,
   (chan_range R h.b0 h.b1).1, by simpa [rawPixel] using (chan_range R h.b0 h.b1).2, (sq_range R h).2.1, by simpa [rawPixel] using (sq_range R h).2.2⟩

/-- Component sums over a list of pixels. -/
def total (ps : List Pixel) : Pixel :=
  ⟨(ps.map Pixel.r).sum, (ps.map Pixel.g).sum, (ps.map Pixel.b).sum, (ps.map Pixel.sq).sum⟩

/-- Add two pixels componentwise. -/
def Pixel.plus (p q : Pixel) : Pixel := ⟨p.r + q.r, p.g + q.g, p.b + q.b, p.sq + q.sq⟩

theorem total_append (a b : List Pixel) : total (a ++ b) = (total a).plus (total b) := by
  unfold total Pixel.plus; simp

theorem total_cons (p : Pixel) (a : List Pixel) : total (p :: a) = p.plus (total a) := by
  unfold total Pixel.plus; simp

theorem total_perm {a b : List Pixel} (h : a.Perm b) : total a = total b := by
  unfold total
  rw [(h.map Pixel.r).sum_eq, (h.map Pixel.g).sum_eq, (h.map Pixel.b).sum_eq, (h.map Pixel.sq).sum_eq]

theorem plus_assoc (a b c : Pixel) : (a.plus b).plus c = a.plus (b.plus c) := by
  unfold Pixel.plus; simp only [add_assoc]

theorem total_upto {ps : List Pixel} (h : ∀ p ∈ ps, p.Upto 1) : (total ps).Upto ps.length := by
  induction ps with
  | nil => unfold total; constructor <;> simp
  | cons p ps ih =>
    have a := h p (by simp)
    have b := ih (fun q hq => h q (by simp [hq]))
    obtain ⟨a1, a2, a3, a4, a5, a6, a7, a8⟩ := a
    obtain ⟨b1, b2, b3, b4, b5, b6, b7, b8⟩ := b
    rw [total_cons, List.length_cons]
    constructor <;> simp only [Pixel.plus] <;> push_cast <;> linarith

theorem addPixelN_eq (R : Rnd 53 fl) {c : RGB} (h : c.OK) {s : Pixel} {k : Int} (hs : s.Upto k) (hk : k + 1 ≤ 256) :
    addPixelN fl s c = s.plus (rawPixel fl c) := by
  obtain ⟨b1, b2, b3, b4, b5, b6, b7, b8⟩ := hs
  have c1 := chan_range R h.r0 h.r1
  have c2 := chan_range R h.g0 h.g1
  have c3 := chan_range R h.b0 h.b1
  have c4 := sq_range R h
  unfold addPixelN Pixel.plus rawPixel
  rw [u16_chan R h.r0 h.r1, u16_chan R h.g0 h.g1, u16_chan R h.b0 h.b1, c4.1]
  simp only [Pixel.mk.injEq]
  refine ⟨?_, ?_, ?_, ?_⟩ <;> omega

/-- Adding a list of colours to a block sum. -/
theorem foldl_addPixelN (R : Rnd 53 fl) : ∀ (cs : List RGB) (s : Pixel) (k : Int), (∀ c ∈ cs, c.OK) → s.Upto k → k + cs.length ≤ 256 →
    cs.foldl (addPixelN fl) s = s.plus (total (cs.map (rawPixel fl))) ∧ (cs.foldl (addPixelN fl) s).Upto (k + cs.length) := by
  intro cs
  induction cs with
  | nil => intro s k _ hs _; refine ⟨by simp [total, Pixel.plus], by simpa using hs⟩
  | cons c cs ih =>
    intro s k hc hs hk
    simp only [List.length_cons] at hk
    push_cast at hk
    have e := addPixelN_eq R (hc c (by simp)) hs (by omega)
    have u : (s.plus (rawPixel fl c)).Upto (k + 1) := by
      obtain ⟨a1, a2, a3, a4, a5, a6, a7, a8⟩ := rawPixel_upto R (hc c (by simp))
      obtain ⟨b1, b2, b3, b4, b5, b6, b7, b8⟩ := hs
      constructor <;> simp only [Pixel.plus] <;> linarith
    have := ih _ (k + 1) (fun c' h' => hc c' (by simp [h'])) u (by omega)
    simp only [List.foldl_cons, e, List.map_cons, total_cons, List.length_cons]
    rw [← plus_assoc]
    push_cast
    rw [show k + (cs.length + 1 : Int) = k + 1 + cs.length by ring]
    exact this

/-- The colours of a block in the order of the code. -/
def blockColors (I : Img) (n x y : Nat) : List RGB :=
  (List.range n).flatMap fun i => (List.range n).map fun j => I.px (x + i) (y + j)

theorem blockAt_foldl (I : Img) (n x y : Nat) : blockAt fl I n x y = (blockColors I n x y).foldl (addPixelN fl) ⟨0, 0, 0, 0⟩ := by
  unfold blockAt blockColors
  rw [List.foldl_flatMap]
  congr 1
  funext s i
  rw [List.foldl_map]

theorem blockColors_length (I : Img) (n x y : Nat) : (blockColors I n x y).length = n * n := by
  unfold blockColors
  rw [List.length_flatMap]
  simp

theorem blockAt_eq (R : Rnd 53 fl) {I : Img} (hI : I.OK) {n x y : Nat} (hn : n ≤ 16) (hx : x + n ≤ I.w) (hy : y + n ≤ I.h) :
    blockAt fl I n x y = total ((blockColors I n x y).map (rawPixel fl)) := by
  rw [blockAt_foldl]
  have hk : ((blockColors I n x y).length : Int) ≤ 256 := by
    rw [blockColors_length]; push_cast; nlinarith
  have := (foldl_addPixelN R (blockColors I n x y) ⟨0, 0, 0, 0⟩ 0 ?_ ?_ (by omega)).1
  · rw [this]; simp [total, Pixel.plus]
  · intro c hc
    unfold blockColors at hc
    simp only [List.mem_flatMap, List.mem_map, List.mem_range] at hc
    obtain ⟨i, hi, j, hj, rfl⟩ := hc
    exact hI _ _ (by omega) (by omega)
  · constructor <;> simp

/-- The stored pixel at a position. -/
def pixelOf (fl : ℚ → ℚ) (I : Img) (q : Int × Int) : Pixel := rawPixel fl (I.px q.1.toNat q.2.toNat)

theorem flatMap_swap {α β γ : Type*} (f : α → β → γ) (l : List α) (m : List β) :
    (l.flatMap fun a => m.map (f a)).Perm (m.flatMap fun b => l.map fun a => f a b) := by
  induction l with
  | nil => simp
  | cons a l ih =>
    simp only [List.flatMap_cons, List.map_cons]
    refine (List.Perm.append_left _ ih).trans ?_
    clear ih
    induction m with
    | nil => simp
    | cons b m ih =>
      simp only [List.map_cons, List.flatMap_cons, List.cons_append]
      refine List.Perm.cons _ ?_
      refine (List.perm_append_comm_assoc _ _ _).trans ?_
      exact List.Perm.append_left _ ih

theorem rows_nat (x n : Nat) : rows (x : Int) (x + n) = (List.range n).map fun i => ((x + i : Nat) : Int) := by
  unfold rows
  rw [show ((x : Int) + n - x).toNat = n by omega]
  simp

theorem block_pixels (I : Img) (n x y : Nat) :
    (((Ev.block x y).pixels n).map (pixelOf fl I)).Perm ((blockColors I n x y).map (rawPixel fl)) := by
  unfold Ev.pixels blockColors
  simp only [rows_nat, List.flatMap_map, List.map_flatMap, List.map_map]
  refine (flatMap_swap (fun (j i : Nat) => rawPixel fl (I.px (x + i) (y + j))) (List.range n) (List.range n)).trans ?_ |>.symm.symm
  exact List.Perm.refl _

/-- A call that stays in the image. -/
def ValidEv (w h bs : Nat) : Ev → Prop
  | .line x0 x1 y => 0 ≤ y ∧ y < h ∧ 0 ≤ x0 ∧ x1 ≤ w
  | .block x y => 0 ≤ y ∧ y + bs ≤ h ∧ 0 ≤ x ∧ x + bs ≤ w

/-- Add a count and a pixel sum. -/
def Sums.plus (s : Sums) (k : Int) (p : Pixel) : Sums := ⟨s.n + k, s.r + p.r, s.g + p.g, s.b + p.b, s.sq + p.sq⟩

theorem sumStep_eq (R : Rnd 53 fl) {I : Img} (hI : I.OK) {bs : Nat} (hb : bs ≤ 16) (s : Sums) {e : Ev} (he : ValidEv I.w I.h bs e) :
    sumStep fl I bs s e = some (s.plus (e.width bs) (total ((e.pixels bs).map (pixelOf fl I)))) := by
  cases e with
  | line x0 x1 y =>
    obtain ⟨h1, h2, h3, h4⟩ := he
    simp only [sumStep, if_pos (And.intro h1 h2), if_pos (And.intro h3 h4), Ev.width, Ev.pixels, List.map_map, Option.some.injEq]
    have key : ∀ (l : List Int) (s : Sums), (∀ x ∈ l, 0 ≤ x ∧ x < I.w) →
        l.foldl (fun s x => s.add 0 (mkPixel fl (I.px x.toNat y.toNat))) s = s.plus 0 (total (l.map ((pixelOf fl I) ∘ fun x => (x, y)))) := by
      intro l
      induction l with
      | nil => intro s _; simp [Sums.plus, total]
      | cons x l ih =>
        intro s hl
        have hx := hl x (by simp)
        rw [List.foldl_cons, ih _ (fun x' h' => hl x' (by simp [h'])), List.map_cons, total_cons,
          mkPixel_raw R (hI _ _ (by omega) (by omega))]
        simp only [Sums.plus, Sums.add, Pixel.plus, pixelOf, Function.comp_apply, Sums.mk.injEq]
        refine ⟨by ring, by ring, by ring, by ring, by ring⟩
    rw [key _ s (fun x hx => by rw [mem_rows] at hx; omega)]
    simp only [Sums.plus, Sums.mk.injEq]
    simp
  | block x y =>
    obtain ⟨h1, h2, h3, h4⟩ := he
    simp only [sumStep]
    rw [if_pos ⟨h1, by omega, h3, by omega⟩, blockAt_eq R hI hb (by omega) (by omega)]
    have := total_perm (block_pixels (fl := fl) I bs x.toNat y.toNat)
    rw [Int.toNat_of_nonneg h3, Int.toNat_of_nonneg h1] at this
    rw [this]
    rfl

theorem foldlM_sums (R : Rnd 53 fl) {I : Img} (hI : I.OK) {bs : Nat} (hb : bs ≤ 16) : ∀ (es : List Ev) (s : Sums), (∀ e ∈ es, ValidEv I.w I.h bs e) →
    es.foldlM (sumStep fl I bs) s = some (s.plus (widths bs es) (total ((es.flatMap (Ev.pixels bs)).map (pixelOf fl I)))) := by
  intro es
  induction es with
  | nil => intro s _; simp [Sums.plus, widths, total]
  | cons e es ih =>
    intro s he
    rw [List.foldlM_cons, sumStep_eq R hI hb s (he e (by simp))]
    simp only [Option.bind_eq_bind, Option.bind_some]
    rw [ih _ (fun e' h' => he e' (by simp [h']))]
    simp only [List.flatMap_cons, List.map_append, total_append, widths, List.map_cons, List.sum_cons]
    simp only [Sums.plus, Pixel.plus, Option.some.injEq, Sums.mk.injEq]
    refine ⟨by ring, by ring, by ring, by ring, by ring⟩

theorem valid_of (R : Rnd 53 fl) (z : ℚ) {I : Img} (hw : I.w ≤ 2 ^ 15) (hh : I.h ≤ 2 ^ 15) {bs : Nat} (hb : 1 ≤ bs) {t : Tri}
    (ht : AllT (InBox I.w I.h) t) : ∀ e ∈ DDATriangleBlocks fl z t bs, ValidEv I.w I.h bs e := by
  intro e he
  have := (blocks_in R z hb hw hh ht e he).1
  cases e <;> simp only [EvIn, ValidEv] at * <;> omega

/-- The pixels of a triangle. -/
def triPixels (fl : ℚ → ℚ) (z : ℚ) (I : Img) (t : Tri) : List Pixel := (DDATriangle fl z t).map (pixelOf fl I)

/-- The sums of a triangle inside the image are the sums over its pixels, for every block size from 1 to 16. -/
theorem triSums_eq (R : Rnd 53 fl) (z : ℚ) {I : Img} (hI : I.OK) (hw : I.w ≤ 2 ^ 15) (hh : I.h ≤ 2 ^ 15) {bs : Nat} (hb : 1 ≤ bs)
    (hb' : bs ≤ 16) {t : Tri} (ht : AllT (InBox I.w I.h) t) :
    triSums fl z I bs t = some ((Sums.mk 0 0 0 0 0).plus (rowsWidth fl t) (total (triPixels fl z I t))) := by
  have hm : Monotone fl := fun a b => R.mono a b
  unfold triSums
  rw [foldlM_sums R hI hb' _ _ (valid_of R z hw hh hb ht), blocks_width hm z hb]
  congr 2
  refine total_perm (List.Perm.map _ ?_)
  rw [List.perm_iff_count]
  rintro ⟨x, y⟩
  unfold DDATriangle
  rw [count_blocks hm z hb, count_lines hm]

theorem widths_forward (bs : Nat) : ∀ (es : List Ev), (∀ e ∈ es, e.Fwd) → widths bs es = (es.flatMap (Ev.pixels bs)).length := by
  intro es
  induction es with
  | nil => intro _; simp [widths]
  | cons e es ih =>
    intro h
    have a := h e (by simp)
    have b := ih (fun e' h' => h e' (by simp [h']))
    unfold widths at b ⊢
    simp only [List.map_cons, List.sum_cons, b, List.flatMap_cons, List.length_append]
    push_cast
    congr 1
    cases e with
    | line x0 x1 y => simp only [Ev.Fwd] at a; simp only [Ev.width, Ev.pixels, List.length_map, rows, List.length_range]; omega
    | block x y => simp [Ev.width, Ev.pixels, List.length_flatMap, rows, Function.comp_def]

/-- For a triangle of nonzero area the count is the number of pixels. -/
theorem rowsWidth_length (R : Rnd 53 fl) (z : ℚ) {w h : Nat} (hw : w ≤ 2 ^ 15) (hh : h ≤ 2 ^ 15) {t : Tri} (ht : AllT (InBox w h) t)
    (hn : iori t.a t.b t.c ≠ 0) : rowsWidth fl t = (DDATriangle fl z t).length := by
  have hm : Monotone fl := fun a b => R.mono a b
  rw [← blocks_width hm z (bs := 1) (by norm_num),
    widths_forward 1 _ (fun e he => (blocks_in R z (by norm_num) hw hh ht e he).2 hn)]
  congr 1
  refine List.Perm.length_eq ?_
  rw [List.perm_iff_count]
  rintro ⟨x, y⟩
  unfold DDATriangle
  rw [count_blocks hm z (by norm_num), count_lines hm]

end Verif.Fit

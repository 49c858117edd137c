import Verif.Fit.Sums
import Verif.Props.Raster

/-!
# Properties of the fitness numbers (C32-C34, C38, C39)
-/

namespace Verif.Props

open Verif.Tri Verif.Spec Verif.Float Verif.Raster Verif.Fit
open Verif.Incr hiding trunc

/-! ### C32 -/

/-- Squared distance of two colours. -/
def dist2 (p c : ℚ × ℚ × ℚ) : ℚ := (p.1 - c.1) ^ 2 + (p.2.1 - c.2.1) ^ 2 + (p.2.2 - c.2.2) ^ 2

/-- Squared error of painting all pixels with the colour `c`. -/
def sqErr (ps : List (ℚ × ℚ × ℚ)) (c : ℚ × ℚ × ℚ) : ℚ := (ps.map fun p => dist2 p c).sum

/-- The mean colour. -/
def mean (ps : List (ℚ × ℚ × ℚ)) : ℚ × ℚ × ℚ :=
  ((ps.map fun p => p.1).sum / ps.length, (ps.map fun p => p.2.1).sum / ps.length, (ps.map fun p => p.2.2).sum / ps.length)

/-- The colour of a stored pixel. -/
def col (p : Pixel) : ℚ × ℚ × ℚ := (p.r, p.g, p.b)

/-- The stored square is the sum of the squared channels. -/
def SqExact (p : Pixel) : Prop := p.sq = p.r ^ 2 + p.g ^ 2 + p.b ^ 2

/-- The sums of a list of pixels. -/
def sumsOf (ps : List Pixel) : Sums :=
  ⟨ps.length, (ps.map Pixel.r).sum, (ps.map Pixel.g).sum, (ps.map Pixel.b).sum, (ps.map Pixel.sq).sum⟩

theorem sqErr_expand (ps : List (ℚ × ℚ × ℚ)) (c : ℚ × ℚ × ℚ) :
    sqErr ps c = (ps.map fun p => p.1 ^ 2 + p.2.1 ^ 2 + p.2.2 ^ 2).sum
      - 2 * (c.1 * (ps.map fun p => p.1).sum + c.2.1 * (ps.map fun p => p.2.1).sum + c.2.2 * (ps.map fun p => p.2.2).sum)
      + ps.length * (c.1 ^ 2 + c.2.1 ^ 2 + c.2.2 ^ 2) := by
  unfold sqErr
  induction ps with
  | nil => simp
  | cons p ps ih =>
    simp only [List.map_cons, List.sum_cons, List.length_cons, ih]
    simp only [dist2]
    push_cast
    ring

theorem sqErr_mean {ps : List (ℚ × ℚ × ℚ)} (h : ps ≠ []) (c : ℚ × ℚ × ℚ) :
    sqErr ps c = sqErr ps (mean ps) + ps.length * dist2 (mean ps) c := by
  have hn : (ps.length : ℚ) ≠ 0 := by simpa using h
  rw [sqErr_expand, sqErr_expand]
  simp only [mean, dist2]
  field_simp
  ring

theorem sqErr_nonneg (ps : List (ℚ × ℚ × ℚ)) (c : ℚ × ℚ × ℚ) : 0 ≤ sqErr ps c := by
  unfold sqErr
  refine List.sum_nonneg ?_
  intro x hx
  rw [List.mem_map] at hx
  obtain ⟨p, -, rfl⟩ := hx
  unfold dist2
  positivity

/-- **C32**, the mean colour has the least squared error. -/
theorem c32_mean_least {ps : List (ℚ × ℚ × ℚ)} (h : ps ≠ []) (c : ℚ × ℚ × ℚ) : sqErr ps (mean ps) ≤ sqErr ps c := by
  rw [sqErr_mean h c]
  have : 0 ≤ dist2 (mean ps) c := by unfold dist2; positivity
  have := mul_nonneg (Nat.cast_nonneg (α := ℚ) ps.length) this
  linarith

example : sqErr [(3, 4, 5), (255, 0, 9), (1, 1, 1)] (mean [(3, 4, 5), (255, 0, 9), (1, 1, 1)]) ≤ sqErr [(3, 4, 5), (255, 0, 9), (1, 1, 1)] (86, 2, 5) :=
  c32_mean_least (by simp) _

theorem cast_sum (l : List Int) : ((l.sum : Int) : ℚ) = (l.map (Int.cast : Int → ℚ)).sum := by
  induction l with
  | nil => simp
  | cons a l ih => simp [ih]

/-- Sum of the squared channels. -/
def sqs (ps : List (ℚ × ℚ × ℚ)) : ℚ := (ps.map fun p => p.1 ^ 2 + p.2.1 ^ 2 + p.2.2 ^ 2).sum

theorem sumsDiff_id {ps : List Pixel} (h : ps ≠ [])
    (hov : (sumsOf ps).r ^ 2 + (sumsOf ps).g ^ 2 + (sumsOf ps).b ^ 2 < 2 ^ 63) :
    sumsDiff id (sumsOf ps) = sqErr (ps.map col) (mean (ps.map col)) + ((sumsOf ps).sq - sqs (ps.map col)) := by
  have hn : (ps.length : ℚ) ≠ 0 := by simpa using h
  have hn' : ((sumsOf ps).n) ≠ 0 := by simpa [sumsOf] using h
  unfold sumsDiff
  rw [if_pos hn']
  have e : (sumsOf ps).r * (sumsOf ps).r + (sumsOf ps).g * (sumsOf ps).g + (sumsOf ps).b * (sumsOf ps).b =
      (sumsOf ps).r ^ 2 + (sumsOf ps).g ^ 2 + (sumsOf ps).b ^ 2 := by ring
  have e0 : 0 ≤ (sumsOf ps).r ^ 2 + (sumsOf ps).g ^ 2 + (sumsOf ps).b ^ 2 := by positivity
  rw [e, w64_id (by omega) (by omega), sqErr_expand, ← sqs]
  simp only [sumsOf, id_eq, mean, List.map_map, List.length_map]
  push_cast
  rw [cast_sum, cast_sum, cast_sum, cast_sum]
  simp only [List.map_map, Function.comp_def, col]
  field_simp
  ring

theorem sq_exact_sum {ps : List Pixel} (hsq : ∀ p ∈ ps, SqExact p) : ((sumsOf ps).sq : ℚ) = sqs (ps.map col) := by
  simp only [sumsOf, sqs]
  rw [cast_sum, List.map_map, List.map_map]
  congr 1
  refine List.map_congr_left fun p hp => ?_
  have := hsq p hp
  unfold SqExact at this
  simp [col, this]

/-- **C32**: for any nonempty list of pixels with exact squares whose sums do not overflow int64 the
value computed from the sums is the squared error of the mean colour. -/
theorem c32_value {ps : List Pixel} (h : ps ≠ []) (hsq : ∀ p ∈ ps, SqExact p)
    (hov : (sumsOf ps).r ^ 2 + (sumsOf ps).g ^ 2 + (sumsOf ps).b ^ 2 < 2 ^ 63) :
    sumsDiff id (sumsOf ps) = sqErr (ps.map col) (mean (ps.map col)) ∧ 0 ≤ sumsDiff id (sumsOf ps) := by
  rw [sumsDiff_id h hov, sq_exact_sum hsq, sub_self, add_zero]
  exact ⟨rfl, sqErr_nonneg _ _⟩

example : sumsDiff id (sumsOf [⟨3, 4, 5, 50⟩, ⟨255, 0, 9, 65106⟩, ⟨1, 1, 1, 3⟩]) = 128146 / 3 := by decide +kernel

example : 0 ≤ sumsDiff id (sumsOf [⟨3, 4, 5, 50⟩, ⟨255, 0, 9, 65106⟩, ⟨1, 1, 1, 3⟩]) :=
  (c32_value (by simp) (by simp [SqExact]) (by simp [sumsOf])).2

/-- An image whose pixel at `(x, y)` has the three bytes `f x y`, as `image.ToData` converts it. -/
def ofBytes (fl : ℚ → ℚ) (w h : Nat) (f : Nat → Nat → Fin 256 × Fin 256 × Fin 256) : Img :=
  ⟨w, h, fun x y => ⟨convertColor fl (f x y).1, convertColor fl (f x y).2.1, convertColor fl (f x y).2.2⟩⟩

/-- The colour, in 0..255, of a pixel. -/
def byteCol (f : Nat → Nat → Fin 256 × Fin 256 × Fin 256) (q : Int × Int) : ℚ × ℚ × ℚ :=
  (((f q.1.toNat q.2.toNat).1.val : ℚ), ((f q.1.toNat q.2.toNat).2.1.val : ℚ), ((f q.1.toNat q.2.toNat).2.2.val : ℚ))

/-! ### C38 -/

theorem convert_range {fl : ℚ → ℚ} (R : Rnd 53 fl) (k : Fin 256) : 0 ≤ convertColor fl k ∧ convertColor fl k ≤ 1 := by
  have hk : ((k : Nat) : ℚ) ≤ 255 := by exact_mod_cast Nat.le_of_lt_succ k.isLt
  unfold convertColor
  refine ⟨R.nonneg (by positivity), ?_⟩
  have := R.le_int (x := (k : Nat) / 255) (n := 1) (by norm_num) (by rw [div_le_iff₀ (by norm_num)]; push_cast; linarith)
  simpa using this

theorem ofBytes_ok {fl : ℚ → ℚ} (R : Rnd 53 fl) (w h : Nat) (f : Nat → Nat → Fin 256 × Fin 256 × Fin 256) : (ofBytes fl w h f).OK := by
  intro x y _ _
  have a := convert_range R (f x y).1
  have b := convert_range R (f x y).2.1
  have c := convert_range R (f x y).2.2
  exact ⟨a.1, a.2, b.1, b.2, c.1, c.2⟩

theorem chan_bytes : ∀ k : Fin 256, trunc (rne 53 (convertColor (rne 53) k * 255)) = k := by decide +kernel

/-- **C38**, channels: in IEEE double arithmetic every byte survives the conversion to a normalised
float and back. -/
theorem c38_channel (k : Nat) (hk : k < 256) : u8 (rne 53 (convertColor (rne 53) k * 255)) = k := by
  have : trunc (rne 53 (convertColor (rne 53) k * 255)) = k := chan_bytes ⟨k, hk⟩
  unfold u8
  rw [this]
  omega

example : u8 (rne 53 (convertColor (rne 53) 129 * 255)) = 129 := c38_channel 129 (by norm_num)

theorem sqTerm_err {fl : ℚ → ℚ} (R : Rnd 53 fl) (k : Fin 256) : |sqTerm fl (convertColor fl k) - (k : Nat) ^ 2| ≤ 1 / 10 := by
  have hk0 : (0 : ℚ) ≤ ((k : Nat) : ℚ) := by positivity
  have hk : ((k : Nat) : ℚ) ≤ 255 := by exact_mod_cast Nat.le_of_lt_succ k.isLt
  set K : ℚ := ((k : Nat) : ℚ)
  set c := convertColor fl k with hc
  have c0 := (convert_range R k).1
  have c1 := (convert_range R k).2
  have ec : |c - K / 255| ≤ K / 255 / 2 ^ 53 := by
    have := R.err (K / 255)
    rwa [abs_of_nonneg (a := K / 255) (by positivity)] at this
  have e1 := R.err (c * 255)
  rw [abs_of_nonneg (a := c * 255) (by positivity)] at e1
  set a := fl (c * 255) with ha
  have ha0 : 0 ≤ a := R.nonneg (by positivity)
  have e2 := R.err (a * c)
  rw [abs_of_nonneg (a := a * c) (by positivity)] at e2
  set b := fl (a * c) with hb
  have hb0 : 0 ≤ b := R.nonneg (by positivity)
  have e3 := R.err (b * 255)
  rw [abs_of_nonneg (a := b * 255) (by positivity)] at e3
  have a1 : a ≤ 256 := by rw [abs_le] at e1; norm_num at e1 ⊢; linarith
  have b1 : b ≤ 257 := by
    have : a * c ≤ 256 := by nlinarith
    rw [abs_le] at e2; norm_num at e2 ⊢; linarith
  have d1 : |a - K| ≤ 1 / 2 ^ 40 := by
    rw [abs_le] at e1 ec ⊢; norm_num at e1 ec ⊢; constructor <;> linarith
  have d2 : |c - K / 255| ≤ 1 / 2 ^ 50 := by
    rw [abs_le] at ec ⊢; norm_num at ec ⊢; constructor <;> linarith
  have d3 : |a * c - K * (K / 255)| ≤ 1 / 2 ^ 30 := by
    have : a * c - K * (K / 255) = (a - K) * c + K * (c - K / 255) := by ring
    rw [this]
    refine (abs_add_le _ _).trans ?_
    rw [abs_mul, abs_mul, abs_of_nonneg c0, abs_of_nonneg hk0]
    have f1 : |a - K| * c ≤ 1 / 2 ^ 40 * 1 := mul_le_mul d1 c1 c0 (by positivity)
    have f2 : K * |c - K / 255| ≤ 255 * (1 / 2 ^ 50) := mul_le_mul hk d2 (abs_nonneg _) (by norm_num)
    norm_num at f1 f2 ⊢
    linarith
  have d4 : |b - K * (K / 255)| ≤ 1 / 2 ^ 29 := by
    have : a * c ≤ 256 := by nlinarith
    rw [abs_le] at e2 d3 ⊢; norm_num at e2 d3 ⊢; constructor <;> linarith
  have : K ^ 2 = 255 * (K * (K / 255)) := by ring
  unfold sqTerm
  rw [← ha, ← hb, this]
  rw [abs_le] at e3 d4 ⊢; norm_num at e3 d4 ⊢; constructor <;> linarith

theorem sqSum_err {fl : ℚ → ℚ} (R : Rnd 53 fl) (r g b : Fin 256) :
    |sqSum fl ⟨convertColor fl r, convertColor fl g, convertColor fl b⟩ - ((r : Nat) ^ 2 + (g : Nat) ^ 2 + (b : Nat) ^ 2 : Nat)| < 1 := by
  have a := sqTerm_err R r
  have b' := sqTerm_err R g
  have c := sqTerm_err R b
  have a2 := sqTerm_range R (convert_range R r).1 (convert_range R r).2
  have b2 := sqTerm_range R (convert_range R g).1 (convert_range R g).2
  have c2 := sqTerm_range R (convert_range R b).1 (convert_range R b).2
  unfold sqSum
  simp only
  set x := sqTerm fl (convertColor fl r)
  set y := sqTerm fl (convertColor fl g)
  set z := sqTerm fl (convertColor fl b)
  have e1 := R.err (x + y)
  rw [abs_of_nonneg (a := x + y) (by linarith)] at e1
  set s := fl (x + y)
  have s0 : 0 ≤ s := R.nonneg (by linarith)
  have e2 := R.err (s + z)
  rw [abs_of_nonneg (a := s + z) (by linarith)] at e2
  push_cast
  rw [abs_le] at *
  rw [abs_lt]
  norm_num at e1 e2 a b' c ⊢
  constructor <;> linarith

/-- **C38**, squares: for every RGB triple of bytes and every 53-bit rounding the stored square is the true
sum of squares or one less. -/
theorem c38_square {fl : ℚ → ℚ} (R : Rnd 53 fl) (r g b : Nat) (hr : r < 256) (hg : g < 256) (hb : b < 256) :
    (mkPixel fl ⟨convertColor fl r, convertColor fl g, convertColor fl b⟩).sq = r ^ 2 + g ^ 2 + b ^ 2 ∨
    (mkPixel fl ⟨convertColor fl r, convertColor fl g, convertColor fl b⟩).sq = r ^ 2 + g ^ 2 + b ^ 2 - 1 := by
  have e := sqSum_err R ⟨r, hr⟩ ⟨g, hg⟩ ⟨b, hb⟩
  have ok : RGB.OK ⟨convertColor fl r, convertColor fl g, convertColor fl b⟩ :=
    let x := convert_range R ⟨r, hr⟩; let y := convert_range R ⟨g, hg⟩; let z := convert_range R ⟨b, hb⟩
    ⟨x.1, x.2, y.1, y.2, z.1, z.2⟩
  have q := sq_range R ok
  simp only [mkPixel]
  rw [q.1]
  simp only at e
  set v := sqSum fl ⟨convertColor fl r, convertColor fl g, convertColor fl b⟩
  have t1 := trunc_gt v
  have v0 := (sqSum_range R ok).1
  have t2 : (trunc v : ℚ) ≤ v := by unfold trunc; rw [if_pos v0]; exact Int.floor_le v
  rw [abs_lt] at e
  have u1 : ((r ^ 2 + g ^ 2 + b ^ 2 : Nat) : ℚ) - 2 < trunc v := by linarith
  have u2 : (trunc v : ℚ) < ((r ^ 2 + g ^ 2 + b ^ 2 : Nat) : ℚ) + 1 := by linarith
  have u1' : ((r ^ 2 + g ^ 2 + b ^ 2 : Nat) : Int) - 2 < trunc v := by exact_mod_cast u1
  have u2' : trunc v < ((r ^ 2 + g ^ 2 + b ^ 2 : Nat) : Int) + 1 := by exact_mod_cast u2
  push_cast at u1' u2'
  omega

example : (mkPixel (rne 53) ⟨convertColor (rne 53) 200, convertColor (rne 53) 13, convertColor (rne 53) 255⟩).sq = 105194 ∨
    (mkPixel (rne 53) ⟨convertColor (rne 53) 200, convertColor (rne 53) 13, convertColor (rne 53) 255⟩).sq = 105193 := by
  have h := c38_square (rne_rnd (p := 53) (by norm_num)) 200 13 255 (by norm_num) (by norm_num) (by norm_num)
  norm_num at h
  exact h

/-- The difference does occur, for example for the grey value 7. -/
theorem c38_square_differs :
    (mkPixel (rne 53) ⟨convertColor (rne 53) 7, convertColor (rne 53) 7, convertColor (rne 53) 7⟩).sq = 7 ^ 2 + 7 ^ 2 + 7 ^ 2 - 1 := by
  decide +kernel

/-! ### C32 for triangles -/

/-- A triangle with vertices in `[0, w] x [0, h]`. -/
def InImage (w h : Nat) (t : Tri) : Prop := ∀ v ∈ vlist t, 0 ≤ v.x ∧ v.x ≤ w ∧ 0 ≤ v.y ∧ v.y ≤ h

theorem InImage.box {w h : Nat} {t : Tri} (ht : InImage w h t) : AllT (InBox w h) t :=
  allT_of fun v hv => let ⟨a, b, c, d⟩ := ht v hv; ⟨a, b, c, d⟩

theorem triSums_of {fl : ℚ → ℚ} (R : Rnd 53 fl) (z : ℚ) {I : Img} (hI : I.OK) (hw : I.w ≤ 32768) (hh : I.h ≤ 32768) {bs : Nat} (hb : 1 ≤ bs)
    (hb' : bs ≤ 16) {t : Tri} (ht : InImage I.w I.h t) (hn : NonDegenerate t) :
    triSums fl z I bs t = some (sumsOf (triPixels fl z I t)) := by
  rw [triSums_eq R z hI hw hh hb hb' ht.box, rowsWidth_length R z hw hh ht.box ((iori_nondeg t).mp hn)]
  unfold Sums.plus total sumsOf triPixels
  simp

theorem sumsOf_upto {ps : List Pixel} (h : ∀ p ∈ ps, p.Upto 1) :
    (0 ≤ (sumsOf ps).r ∧ (sumsOf ps).r ≤ 255 * ps.length) ∧ (0 ≤ (sumsOf ps).g ∧ (sumsOf ps).g ≤ 255 * ps.length) ∧
    (0 ≤ (sumsOf ps).b ∧ (sumsOf ps).b ≤ 255 * ps.length) ∧ 0 ≤ (sumsOf ps).sq ∧ (sumsOf ps).sq ≤ 195075 * ps.length :=
  let ⟨a, b, c, d, e, f, g, i⟩ := total_upto h
  ⟨⟨a, b⟩, ⟨c, d⟩, ⟨e, f⟩, g, i⟩

theorem sumsOf_sq {ps : List Pixel} (h : ∀ p ∈ ps, p.Upto 1) :
    (sumsOf ps).r ^ 2 + (sumsOf ps).g ^ 2 + (sumsOf ps).b ^ 2 ≤ 195075 * (ps.length : Int) ^ 2 := by
  obtain ⟨⟨a, b⟩, ⟨c, d⟩, ⟨e, f⟩, -⟩ := sumsOf_upto h
  have := pow_le_pow_left₀ a b 2
  have := pow_le_pow_left₀ c d 2
  have := pow_le_pow_left₀ e f 2
  linarith

theorem sumsOf_ov {ps : List Pixel} (h : ∀ p ∈ ps, p.Upto 1) (hn : ps.length ≤ 6876000) :
    (sumsOf ps).r ^ 2 + (sumsOf ps).g ^ 2 + (sumsOf ps).b ^ 2 < 2 ^ 63 := by
  have h1 := sumsOf_sq h
  have h2 : (ps.length : Int) ^ 2 ≤ 6876000 ^ 2 := pow_le_pow_left₀ (by positivity) (by exact_mod_cast hn) 2
  norm_num at h2 ⊢
  linarith

theorem triPixels_upto {fl : ℚ → ℚ} (R : Rnd 53 fl) (z : ℚ) {I : Img} (hI : I.OK) (hw : I.w ≤ 32768) (hh : I.h ≤ 32768) {t : Tri}
    (ht : InImage I.w I.h t) : ∀ p ∈ triPixels fl z I t, p.Upto 1 := by
  intro p hp
  unfold triPixels at hp
  rw [List.mem_map] at hp
  obtain ⟨q, hq, rfl⟩ := hp
  have := (c29_bounds R z hw hh t ht (bs := 1) (by norm_num)).2.2 q hq
  unfold IsPixel at this
  exact rawPixel_upto R (hI _ _ (by omega) (by omega))

theorem chan_id (k : Fin 256) : trunc (id (convertColor id k * 255)) = k := by
  unfold convertColor
  simp only [id_eq]
  rw [div_mul_cancel₀ _ (by norm_num)]
  exact_mod_cast trunc_int (k : Nat)

theorem pixelOf_id (w h : Nat) (f : Nat → Nat → Fin 256 × Fin 256 × Fin 256) (q : Int × Int) :
    SqExact (pixelOf id (ofBytes id w h f) q) := by
  unfold SqExact pixelOf rawPixel
  simp only [ofBytes]
  rw [chan_id, chan_id, chan_id]
  generalize f q.1.toNat q.2.toNat = c
  have : sqSum id ⟨convertColor id c.1, convertColor id c.2.1, convertColor id c.2.2⟩ =
      (((c.1 : Nat) ^ 2 + (c.2.1 : Nat) ^ 2 + (c.2.2 : Nat) ^ 2 : Int) : ℚ) := by
    unfold sqSum sqTerm convertColor
    simp only [id_eq]
    push_cast
    ring
  rw [this, trunc_int]

theorem col_pixelOf {fl : ℚ → ℚ} (hc : ∀ k : Fin 256, trunc (fl (convertColor fl k * 255)) = k) (w h : Nat)
    (f : Nat → Nat → Fin 256 × Fin 256 × Fin 256) (q : Int × Int) : col (pixelOf fl (ofBytes fl w h f) q) = byteCol f q := by
  unfold col pixelOf rawPixel byteCol
  simp only [ofBytes]
  rw [hc, hc, hc]
  push_cast
  rfl

/-- **C32** for the code in exact arithmetic: the value of a triangle is the squared error of the mean
colour of the pixels it covers, the least over all colours.  The bound keeps `sR0*sR0+sG0*sG0+sB0*sB0`
below 2^63. -/
theorem c32_triangle (z : ℚ) {w h : Nat} (hw : w ≤ 32768) (hh : h ≤ 32768) (f : Nat → Nat → Fin 256 × Fin 256 × Fin 256)
    {t : Tri} (ht : InImage w h t) (hn : NonDegenerate t) {bs : Nat} (hb : 1 ≤ bs) (hb' : bs ≤ 16)
    (hsize : (DDATriangle id z t).length ≤ 6876000) :
    ∃ v, triValue id z (ofBytes id w h f) bs t = some v ∧ 0 ≤ v ∧
      v = sqErr ((DDATriangle id z t).map (byteCol f)) (mean ((DDATriangle id z t).map (byteCol f))) ∧
      ∀ c, v ≤ sqErr ((DDATriangle id z t).map (byteCol f)) c := by
  have R := id_rnd 53
  have hI := ofBytes_ok R w h f
  unfold triValue
  rw [triSums_of R z hI hw hh hb hb' ht hn, Option.map_some]
  have hl : (triPixels id z (ofBytes id w h f) t).length ≤ 6876000 := by unfold triPixels; simpa using hsize
  have hcols : (triPixels id z (ofBytes id w h f) t).map col = (DDATriangle id z t).map (byteCol f) := by
    unfold triPixels
    rw [List.map_map]
    exact List.map_congr_left fun q _ => col_pixelOf chan_id w h f q
  have key : sumsDiff id (sumsOf (triPixels id z (ofBytes id w h f) t)) =
      sqErr ((DDATriangle id z t).map (byteCol f)) (mean ((DDATriangle id z t).map (byteCol f))) := by
    rw [← hcols]
    by_cases he : triPixels id z (ofBytes id w h f) t = []
    · rw [he]; simp [sumsOf, sumsDiff, sqErr]
    · refine (c32_value he ?_ (sumsOf_ov (triPixels_upto R z hI hw hh ht) hl)).1
      intro p hp
      unfold triPixels at hp
      rw [List.mem_map] at hp
      obtain ⟨q, -, rfl⟩ := hp
      exact pixelOf_id w h f q
  refine ⟨_, rfl, key ▸ sqErr_nonneg _ _, key, fun c => ?_⟩
  rw [key]
  by_cases he : DDATriangle id z t = []
  · rw [he]; simp [sqErr]
  · exact c32_mean_least (by simpa using he) c

theorem sq_bounds {fl : ℚ → ℚ} (R : Rnd 53 fl) (w h : Nat)
    (f : Nat → Nat → Fin 256 × Fin 256 × Fin 256) (qs : List (Int × Int)) :
    sqs (qs.map (byteCol f)) - qs.length ≤ (sumsOf (qs.map (pixelOf fl (ofBytes fl w h f)))).sq ∧
    ((sumsOf (qs.map (pixelOf fl (ofBytes fl w h f)))).sq : ℚ) ≤ sqs (qs.map (byteCol f)) := by
  have one : ∀ q, ((pixelOf fl (ofBytes fl w h f) q).sq : ℚ) =
        (byteCol f q).1 ^ 2 + (byteCol f q).2.1 ^ 2 + (byteCol f q).2.2 ^ 2 ∨
      ((pixelOf fl (ofBytes fl w h f) q).sq : ℚ) = (byteCol f q).1 ^ 2 + (byteCol f q).2.1 ^ 2 + (byteCol f q).2.2 ^ 2 - 1 := by
    intro q
    have hI := ofBytes_ok R (q.1.toNat + 1) (q.2.toNat + 1) f q.1.toNat q.2.toNat (by simp [ofBytes]) (by simp [ofBytes])
    have := c38_square R (f q.1.toNat q.2.toNat).1 (f q.1.toNat q.2.toNat).2.1 (f q.1.toNat q.2.toNat).2.2
      (Fin.isLt _) (Fin.isLt _) (Fin.isLt _)
    have e : mkPixel fl ⟨convertColor fl (f q.1.toNat q.2.toNat).1, convertColor fl (f q.1.toNat q.2.toNat).2.1,
        convertColor fl (f q.1.toNat q.2.toNat).2.2⟩ = pixelOf fl (ofBytes fl w h f) q := mkPixel_raw R hI
    rw [e] at this
    unfold byteCol
    rcases this with h | h
    · left; rw [h]; push_cast; rfl
    · right; rw [h]; push_cast; rfl
  unfold sqs sumsOf
  simp only [List.map_map]
  induction qs with
  | nil => simp
  | cons q qs ih =>
    simp only [List.map_cons, List.sum_cons, List.length_cons, Function.comp_apply]
    push_cast
    rcases one q with h | h <;> rw [h] <;> constructor <;> linarith [ih.1, ih.2]

/-- Rounding changes the value computed from the sums of at most 6876000 pixels by less than 1/1000. -/
theorem sumsDiff_round {fl : ℚ → ℚ} (R : Rnd 53 fl) {ps : List Pixel} (hp : ∀ p ∈ ps, p.Upto 1) (hn : ps.length ≤ 6876000) :
    |sumsDiff fl (sumsOf ps) - sumsDiff id (sumsOf ps)| ≤ 1 / 1000 := by
  have hov := sumsOf_ov hp hn
  obtain ⟨-, -, -, q0, q1⟩ := sumsOf_upto hp
  have hS := sumsOf_sq hp
  unfold sumsDiff
  by_cases h0 : (sumsOf ps).n = 0
  · simp [h0]
  have hl : 0 < ps.length := by
    have : (sumsOf ps).n = ps.length := rfl
    omega
  rw [if_pos h0, if_pos h0]
  have e : (sumsOf ps).r * (sumsOf ps).r + (sumsOf ps).g * (sumsOf ps).g + (sumsOf ps).b * (sumsOf ps).b =
      (sumsOf ps).r ^ 2 + (sumsOf ps).g ^ 2 + (sumsOf ps).b ^ 2 := by ring
  have e0 : 0 ≤ (sumsOf ps).r ^ 2 + (sumsOf ps).g ^ 2 + (sumsOf ps).b ^ 2 := by positivity
  rw [e, w64_id (by omega) (by omega)]
  generalize (sumsOf ps).r ^ 2 + (sumsOf ps).g ^ 2 + (sumsOf ps).b ^ 2 = S at *
  have en : (sumsOf ps).n = ps.length := rfl
  rw [en]
  have hnI : (ps.length : Int) ≤ 6876000 := by exact_mod_cast hn
  rw [R.int (n := (ps.length : Int)) (by rw [abs_of_nonneg (by positivity)]; norm_num; omega)]
  rw [R.int (n := (sumsOf ps).sq) (by rw [abs_of_nonneg q0]; norm_num; linarith)]
  simp only [id_eq]
  generalize (sumsOf ps).sq = Q at *
  have Q0 : (0 : ℚ) ≤ Q := by exact_mod_cast q0
  have Q1 : (Q : ℚ) ≤ 195075 * 6876000 := by
    have : Q ≤ 195075 * 6876000 := by linarith
    exact_mod_cast this
  set n : ℚ := ((ps.length : Int) : ℚ) with hnq
  have n0 : 0 < n := by rw [hnq]; exact_mod_cast hl
  have n1 : n ≤ 6876000 := by rw [hnq]; exact_mod_cast hn
  have S0 : (0 : ℚ) ≤ S := by exact_mod_cast e0
  have S1 : (S : ℚ) ≤ 195075 * n ^ 2 := by rw [hnq]; exact_mod_cast hS
  have m0 : (0 : ℚ) ≤ S / n := by positivity
  have m1 : (S : ℚ) / n ≤ 195075 * 6876000 := by
    rw [div_le_iff₀ n0]; nlinarith
  have r1 := R.err S
  rw [abs_of_nonneg S0] at r1
  have r1' : |fl S / n - S / n| ≤ S / n / 2 ^ 53 := by
    rw [← sub_div, abs_div, abs_of_pos n0, div_right_comm]
    exact div_le_div_of_nonneg_right r1 n0.le
  have f0 : 0 ≤ fl S / n := div_nonneg (R.nonneg S0) n0.le
  have r2 := R.err (fl S / n)
  rw [abs_of_nonneg f0] at r2
  have g0 : 0 ≤ fl (fl S / n) := R.nonneg f0
  have r3 := R.err (Q - fl (fl S / n))
  generalize fl (Q - fl (fl S / n)) = V at *
  generalize fl (fl S / n) = G at *
  generalize fl S / n = F at *
  generalize (S : ℚ) / n = M at *
  have r1'' := abs_le.mp r1'
  have r2' := abs_le.mp r2
  norm_num at r1'' r2' m1 Q1
  have hX : |(Q : ℚ) - G| ≤ 1341335710000 := by rw [abs_le]; constructor <;> linarith
  have r3' := abs_le.mp (r3.trans (div_le_div_of_nonneg_right hX (by norm_num)))
  rw [abs_le]
  norm_num at r3' ⊢
  constructor <;> linarith

/-- **C32** for the code in IEEE double arithmetic: the value of a triangle that covers `n` pixels is at most
the least squared error plus 1/1000 and at least the least squared error minus `n` and 1/1000.  The loss of
up to 1 per pixel is the rounding down of stored squares (`c38_square_differs`). -/
theorem c32_ieee_partial (z : ℚ) {w h : Nat} (hw : w ≤ 32768) (hh : h ≤ 32768) (f : Nat → Nat → Fin 256 × Fin 256 × Fin 256)
    {t : Tri} (ht : InImage w h t) (hn : NonDegenerate t) {bs : Nat} (hb : 1 ≤ bs) (hb' : bs ≤ 16)
    (hsize : (DDATriangle (rne 53) z t).length ≤ 6876000) :
    ∃ v, triValue (rne 53) z (ofBytes (rne 53) w h f) bs t = some v ∧
      (∀ c, v ≤ sqErr ((DDATriangle (rne 53) z t).map (byteCol f)) c + 1 / 1000) ∧
      sqErr ((DDATriangle (rne 53) z t).map (byteCol f)) (mean ((DDATriangle (rne 53) z t).map (byteCol f)))
        - (DDATriangle (rne 53) z t).length - 1 / 1000 ≤ v := by
  have R : Rnd 53 (rne 53) := rne_rnd (by norm_num)
  have hI := ofBytes_ok R w h f
  unfold triValue
  rw [triSums_of R z hI hw hh hb hb' ht hn, Option.map_some]
  have hl : (triPixels (rne 53) z (ofBytes (rne 53) w h f) t).length ≤ 6876000 := by unfold triPixels; simpa using hsize
  have hu := triPixels_upto R z hI hw hh ht
  have hcols : (triPixels (rne 53) z (ofBytes (rne 53) w h f) t).map col = (DDATriangle (rne 53) z t).map (byteCol f) := by
    unfold triPixels
    rw [List.map_map]
    exact List.map_congr_left fun q _ => col_pixelOf chan_bytes w h f q
  have r := abs_le.mp (sumsDiff_round R hu hl)
  obtain ⟨b1, b2⟩ := sq_bounds R w h f (DDATriangle (rne 53) z t)
  rw [← triPixels] at b1 b2
  refine ⟨_, rfl, ?_⟩
  by_cases he : DDATriangle (rne 53) z t = []
  · have : triPixels (rne 53) z (ofBytes (rne 53) w h f) t = [] := by unfold triPixels; rw [he]; rfl
    rw [this, he]
    simp [sumsOf, sumsDiff, sqErr]
  · have hne : triPixels (rne 53) z (ofBytes (rne 53) w h f) t ≠ [] := by unfold triPixels; simpa using he
    have k := sumsDiff_id hne (sumsOf_ov hu hl)
    rw [hcols] at k
    constructor
    · intro c
      have := c32_mean_least (ps := (DDATriangle (rne 53) z t).map (byteCol f)) (by simpa using he) c
      linarith [r.1, r.2]
    · linarith [r.1, r.2]

/-- Half of a 4096 x 4096 image. -/
def halfTri : Tri := ⟨⟨0, 0⟩, ⟨4096, 0⟩, ⟨0, 4096⟩⟩

/-- A white image. -/
def white (fl : ℚ → ℚ) (w h : Nat) : Img := ofBytes fl w h fun _ _ => (255, 255, 255)

theorem edgeAt_int {fl : ℚ → ℚ} (R : Rnd 53 fl) {a b : Pt} (m : Int) (hs : ((a.x - b.x : Int) : ℚ) / ((a.y - b.y : Int) : ℚ) = m)
    (hm : |m| ≤ 1) {y : Int} (hy : |y - a.y| ≤ 2 ^ 20) (hx : |a.x| ≤ 2 ^ 20) : edgeAt fl a b y = m * (y - a.y) + a.x := by
  have h1 : |m * (y - a.y)| ≤ 2 ^ 20 := by
    rw [abs_mul]
    calc |m| * |y - a.y| ≤ 1 * 2 ^ 20 := mul_le_mul hm hy (abs_nonneg _) (by norm_num)
      _ = 2 ^ 20 := by norm_num
  unfold edgeAt madd slope
  rw [hs, R.int (hm.trans (by norm_num))]
  have e1 : (m : ℚ) * ((y - a.y : Int) : ℚ) = ((m * (y - a.y) : Int) : ℚ) := by push_cast; ring
  rw [e1, R.int (h1.trans (by norm_num))]
  have e2 : ((m * (y - a.y) : Int) : ℚ) + a.x = ((m * (y - a.y) + a.x : Int) : ℚ) := by push_cast; ring
  rw [e2, R.int ((abs_add_le _ _).trans (by norm_num at h1 hx ⊢; linarith))]
  push_cast
  ring

theorem halfTri_width {fl : ℚ → ℚ} (R : Rnd 53 fl) : rowsWidth fl halfTri = 8390656 := by
  have e : sortY halfTri = (⟨0, 4096⟩, ⟨0, 0⟩, ⟨4096, 0⟩) := by decide
  unfold rowsWidth
  rw [e]
  simp only [downEdges]
  rw [Finset.Ico_eq_empty (a := (0 : Int) + 1) (by norm_num)]
  simp only [Finset.sum_empty, zero_add, if_true]
  rw [if_neg (by norm_num)]
  have : ∀ r ∈ Finset.Ico (0 : Int) 4096, trunc (edgeAt fl ⟨4096, 0⟩ ⟨0, 4096⟩ r) - trunc (edgeAt fl ⟨0, 0⟩ ⟨0, 4096⟩ r) = 4096 - r := by
    intro r hr
    rw [Finset.mem_Ico] at hr
    rw [edgeAt_int R (-1) (by norm_num) (by norm_num) (abs_le.mpr ⟨by norm_num; omega, by norm_num; omega⟩) (by norm_num),
      edgeAt_int R 0 (by norm_num) (by norm_num) (abs_le.mpr ⟨by norm_num; omega, by norm_num; omega⟩) (by norm_num)]
    have a : ((-1 : Int) : ℚ) * (r - ((0 : Int) : ℚ)) + ((4096 : Int) : ℚ) = ((4096 - r : Int) : ℚ) := by push_cast; ring
    have b : ((0 : Int) : ℚ) * (r - ((0 : Int) : ℚ)) + ((0 : Int) : ℚ) = ((0 : Int) : ℚ) := by push_cast; ring
    rw [a, b, trunc_int, trunc_int, sub_zero]
  rw [Finset.sum_congr rfl this]
  have gauss : ∀ n : Nat, ∑ r ∈ Finset.Ico (0 : Int) n, (4096 - r) * 2 = n * (8193 - n) := by
    intro n
    induction n with
    | zero => simp
    | succ n ih =>
      rw [sum_split (lo := 0) (mid := n) (hi := (n + 1 : Nat)) (by omega) (by push_cast; omega), ih]
      have : Finset.Ico (n : Int) ((n + 1 : Nat) : Int) = {(n : Int)} := by
        ext x; simp only [Finset.mem_Ico, Finset.mem_singleton]; push_cast; omega
      rw [this, Finset.sum_singleton]
      push_cast
      ring
  have g := gauss 4096
  have d : ∑ r ∈ Finset.Ico (0 : Int) 4096, (4096 - r) * 2 = (∑ r ∈ Finset.Ico (0 : Int) 4096, (4096 - r)) + ∑ r ∈ Finset.Ico (0 : Int) 4096, (4096 - r) := by
    rw [← Finset.sum_add_distrib]
    exact Finset.sum_congr rfl fun r _ => by ring
  rw [show ((4096 : Nat) : Int) = 4096 from rfl, d] at g
  change ∑ r ∈ Finset.Ico (0 : Int) 4096, (4096 - r) = 8390656
  norm_num at g
  linarith

theorem sumsOf_replicate (n : Nat) (p : Pixel) : sumsOf (List.replicate n p) = ⟨n, n * p.r, n * p.g, n * p.b, n * p.sq⟩ := by
  unfold sumsOf
  simp only [List.map_replicate, List.sum_replicate, List.length_replicate, nsmul_eq_mul]

/-- Without the bound on the number of pixels C32 is false of the code: on a white 4096 x 4096 image the
int64 sum of squares overflows for half of the image, and the value is not 0 but larger than the error of the
worst possible picture. -/
theorem c32_overflow_false (z : ℚ) {fl : ℚ → ℚ} (R : Rnd 53 fl) (hc : ∀ k : Fin 256, trunc (fl (convertColor fl k * 255)) = k)
    (hs : (rawPixel fl ⟨convertColor fl 255, convertColor fl 255, convertColor fl 255⟩).sq = 195075) {bs : Nat} (hb : 1 ≤ bs) (hb' : bs ≤ 16) :
    ∃ v, triValue fl z (white fl 4096 4096) bs halfTri = some v ∧ 195075 * 8390656 ≤ v ∧ (DDATriangle fl z halfTri).length = 8390656 := by
  have hI := ofBytes_ok R 4096 4096 fun _ _ => (255, 255, 255)
  have ht : InImage 4096 4096 halfTri := by unfold InImage; decide
  have hn : NonDegenerate halfTri := by unfold NonDegenerate halfTri area2 loc; norm_num
  have hl : (DDATriangle fl z halfTri).length = 8390656 := by
    have := rowsWidth_length R z (w := 4096) (h := 4096) (by norm_num) (by norm_num) ht.box ((iori_nondeg _).mp hn)
    rw [halfTri_width R] at this
    omega
  unfold triValue white
  rw [triSums_of R z hI (by simp [ofBytes]) (by simp [ofBytes]) hb hb' ht hn, Option.map_some]
  refine ⟨_, rfl, ?_, hl⟩
  have hp : triPixels fl z (ofBytes fl 4096 4096 fun _ _ => (255, 255, 255)) halfTri = List.replicate 8390656 ⟨255, 255, 255, 195075⟩ := by
    unfold triPixels
    rw [List.eq_replicate_iff]
    refine ⟨by rw [List.length_map, hl], ?_⟩
    intro p hp
    rw [List.mem_map] at hp
    obtain ⟨q, -, rfl⟩ := hp
    have k := hc 255
    have e : pixelOf fl (ofBytes fl 4096 4096 fun _ _ => (255, 255, 255)) q = rawPixel fl ⟨convertColor fl 255, convertColor fl 255, convertColor fl 255⟩ := rfl
    rw [e]
    have r : (rawPixel fl ⟨convertColor fl 255, convertColor fl 255, convertColor fl 255⟩).r = 255 := k
    have g : (rawPixel fl ⟨convertColor fl 255, convertColor fl 255, convertColor fl 255⟩).g = 255 := k
    have b : (rawPixel fl ⟨convertColor fl 255, convertColor fl 255, convertColor fl 255⟩).b = 255 := k
    generalize rawPixel fl ⟨convertColor fl 255, convertColor fl 255, convertColor fl 255⟩ = p at *
    cases p
    simp_all
  rw [hp, sumsOf_replicate]
  unfold sumsDiff
  rw [if_pos (by norm_num)]
  have ew : w64 (((8390656 : Nat) : Int) * 255 * (((8390656 : Nat) : Int) * 255) + ((8390656 : Nat) : Int) * 255 * (((8390656 : Nat) : Int) * 255) +
      ((8390656 : Nat) : Int) * 255 * (((8390656 : Nat) : Int) * 255)) = -4712857759085756416 := by
    decide +kernel
  simp only
  rw [ew]
  have h0 : fl ((((8390656 : Nat) : Int) * 195075 : Int) : ℚ) = ((195075 * 8390656 : Int) : ℚ) := by
    rw [R.int (by norm_num)]; norm_num
  rw [h0]
  have h1 : fl ((-4712857759085756416 : Int) : ℚ) ≤ 0 := R.nonpos (by norm_num)
  have h2 : fl (fl ((-4712857759085756416 : Int) : ℚ) / fl (((8390656 : Nat) : Int) : ℚ)) ≤ 0 :=
    R.nonpos (div_nonpos_of_nonpos_of_nonneg h1 (R.nonneg (by norm_num)))
  have h3 := R.int_le (n := 195075 * 8390656) (x := ((195075 * 8390656 : Int) : ℚ) - fl (fl ((-4712857759085756416 : Int) : ℚ) / fl (((8390656 : Nat) : Int) : ℚ)))
    (by norm_num) (by push_cast; linarith)
  refine le_trans (le_of_eq ?_) h3
  norm_num

example : ∃ v, triValue (rne 53) 0 (white (rne 53) 4096 4096) 5 halfTri = some v ∧ 195075 * 8390656 ≤ v :=
  let ⟨v, h1, h2, _⟩ := c32_overflow_false 0 (rne_rnd (by norm_num)) chan_bytes (by decide +kernel) (bs := 5) (by norm_num) (by norm_num)
  ⟨v, h1, h2⟩

/-! ### C33 -/

/-- **C33**: for `n ≤ 16` every stored block sum is the sum over its pixels. -/
theorem c33_blocks {fl : ℚ → ℚ} (R : Rnd 53 fl) {I : Img} (hI : I.OK) {n x y : Nat} (hn : n ≤ 16) (hx : x + n ≤ I.w) (hy : y + n ≤ I.h) :
    (blockAt fl I n x y).r = ∑ i ∈ Finset.range n, ∑ j ∈ Finset.range n, (mkPixel fl (I.px (x + i) (y + j))).r ∧
    (blockAt fl I n x y).g = ∑ i ∈ Finset.range n, ∑ j ∈ Finset.range n, (mkPixel fl (I.px (x + i) (y + j))).g ∧
    (blockAt fl I n x y).b = ∑ i ∈ Finset.range n, ∑ j ∈ Finset.range n, (mkPixel fl (I.px (x + i) (y + j))).b ∧
    (blockAt fl I n x y).sq = ∑ i ∈ Finset.range n, ∑ j ∈ Finset.range n, (mkPixel fl (I.px (x + i) (y + j))).sq := by
  have key : ∀ F : Pixel → Int, ((blockColors I n x y).map (F ∘ rawPixel fl)).sum =
      ∑ i ∈ Finset.range n, ∑ j ∈ Finset.range n, F (mkPixel fl (I.px (x + i) (y + j))) := by
    intro F
    unfold blockColors
    rw [List.map_flatMap, List.flatMap_def, List.sum_flatten, List.map_map]
    rw [← List.sum_toFinset _ List.nodup_range, List.toFinset_range]
    refine Finset.sum_congr rfl fun i hi => ?_
    simp only [Function.comp_apply, List.map_map]
    rw [← List.sum_toFinset _ List.nodup_range, List.toFinset_range]
    refine Finset.sum_congr rfl fun j hj => ?_
    rw [Finset.mem_range] at hi hj
    rw [mkPixel_raw R (hI _ _ (by omega) (by omega))]
    rfl
  rw [blockAt_eq R hI hn hx hy]
  simp only [total, List.map_map]
  exact ⟨key Pixel.r, key Pixel.g, key Pixel.b, key Pixel.sq⟩

/-- The bound is sharp: for white images the sums of 17 x 17 blocks wrap around. -/
theorem c33_sharp : (blockAt (rne 53) (white (rne 53) 17 17) 17 0 0).r = 17 * 17 * 255 - 65536 := by
  decide +kernel

example : (blockAt (rne 53) (white (rne 53) 40 40) 16 3 5).r = 65280 := by decide +kernel

example : (white (rne 53) 40 40).OK := ofBytes_ok (rne_rnd (by norm_num)) 40 40 _

/-! ### C34 -/

/-- **C34**: the value of a triangle inside the image does not depend on the block size, and is computed
without an index out of range.  Degenerate triangles included. -/
theorem c34_block_size {fl : ℚ → ℚ} (R : Rnd 53 fl) (z : ℚ) {I : Img} (hI : I.OK) (hw : I.w ≤ 32768) (hh : I.h ≤ 32768) {t : Tri}
    (ht : InImage I.w I.h t) {b1 b2 : Nat} (h1 : 1 ≤ b1) (h1' : b1 ≤ 16) (h2 : 1 ≤ b2) (h2' : b2 ≤ 16) :
    triValue fl z I b1 t = triValue fl z I b2 t ∧ (triValue fl z I b1 t).isSome := by
  unfold triValue
  rw [triSums_eq R z hI hw hh h1 h1' ht.box, triSums_eq R z hI hw hh h2 h2' ht.box]
  simp

/-- A 31 x 31 test image. -/
def testImg (fl : ℚ → ℚ) : Img := ofBytes fl 31 31 fun x y => (Fin.ofNat 256 (x * y), Fin.ofNat 256 (7 * x), Fin.ofNat 256 (x + 8 * y))

example : triValue (rne 53) 0 (testImg (rne 53)) 3 tri2 = triValue (rne 53) 0 (testImg (rne 53)) 5 tri2 :=
  (c34_block_size (rne_rnd (by norm_num)) 0 (ofBytes_ok (rne_rnd (by norm_num)) 31 31 _) (by simp [ofBytes]) (by simp [ofBytes])
    (by unfold InImage ofBytes; decide) (by norm_num) (by norm_num) (by norm_num) (by norm_num)).1

/-! ### C39 -/

theorem half_rep (n : Nat) (hn : n ≤ 32767) : Rep 53 ((n : ℚ) + 1 / 2) :=
  ⟨2 * n + 1, -1, by rw [abs_of_nonneg (by positivity)]; norm_num; omega, by push_cast; norm_num; ring⟩

theorem fastRound_range {fl : ℚ → ℚ} (R : Rnd 53 fl) {w : Nat} (hw : w ≤ 32767) {x : ℚ} (h0 : 0 ≤ x) (h1 : x ≤ 1) :
    0 ≤ fastRound fl (fl (x * w)) ∧ fastRound fl (fl (x * w)) ≤ w := by
  have a0 : 0 ≤ fl (x * w) := R.nonneg (by positivity)
  have a1 : fl (x * w) ≤ (w : Int) :=
    R.le_int (by rw [abs_of_nonneg (by positivity)]; norm_num; omega) (by push_cast; nlinarith [(Nat.cast_nonneg w : (0 : ℚ) ≤ w)])
  push_cast at a1
  unfold fastRound
  have b0 : 0 ≤ fl (fl (x * w) + 1 / 2) := R.nonneg (by linarith)
  have b1 : fl (fl (x * w) + 1 / 2) ≤ w + 1 / 2 := by
    have := R.mono (fl (x * w) + 1 / 2) (w + 1 / 2) (by linarith)
    rwa [R.fix _ (half_rep w hw)] at this
  unfold trunc
  rw [if_pos b0]
  refine ⟨Int.floor_nonneg.mpr b0, ?_⟩
  have : (⌊fl (fl (x * w) + 1 / 2)⌋ : ℚ) < w + 1 := (Int.floor_le _).trans_lt (by linarith)
  have : ⌊fl (fl (x * w) + 1 / 2)⌋ < (w : Int) + 1 := by exact_mod_cast this
  omega

theorem createPoint_eq {fl : ℚ → ℚ} (R : Rnd 53 fl) {w h : Nat} (hw : w ≤ 32767) (hh : h ≤ 32767) {p : NP}
    (hp : (0 ≤ p.x ∧ p.x ≤ 1) ∧ 0 ≤ p.y ∧ p.y ≤ 1) :
    createPoint fl p w h = ⟨fastRound fl (fl (p.x * w)), fastRound fl (fl (p.y * h))⟩ := by
  have a := fastRound_range R hw hp.1.1 hp.1.2
  have b := fastRound_range R hh hp.2.1 hp.2.2
  unfold createPoint
  rw [w16_id (by omega) (by omega), w16_id (by omega) (by omega)]

/-- **C39**: coordinates in `[0, 1]` are mapped into `[0, w] x [0, h]`. -/
theorem c39_in_image {fl : ℚ → ℚ} (R : Rnd 53 fl) {w h : Nat} (hw : w ≤ 32767) (hh : h ≤ 32767) (p : NP)
    (hp : (0 ≤ p.x ∧ p.x ≤ 1) ∧ 0 ≤ p.y ∧ p.y ≤ 1) :
    0 ≤ (createPoint fl p w h).x ∧ (createPoint fl p w h).x ≤ w ∧ 0 ≤ (createPoint fl p w h).y ∧ (createPoint fl p w h).y ≤ h := by
  have a := fastRound_range R hw hp.1.1 hp.1.2
  have b := fastRound_range R hh hp.2.1 hp.2.2
  rw [createPoint_eq R hw hh hp]
  exact ⟨a.1, a.2, b.1, b.2⟩

example : (createPoint (rne 53) ⟨999999 / 1000000, 1 / 3⟩ 500 400).x ≤ 500 :=
  (c39_in_image (rne_rnd (by norm_num)) (w := 500) (h := 400) (by norm_num) (by norm_num) _ (by norm_num)).2.1

/-- **C39**: the map is monotone in each coordinate. -/
theorem c39_monotone {fl : ℚ → ℚ} (R : Rnd 53 fl) {w h : Nat} (hw : w ≤ 32767) (hh : h ≤ 32767) (p q : NP)
    (hp : (0 ≤ p.x ∧ p.x ≤ 1) ∧ 0 ≤ p.y ∧ p.y ≤ 1) (hq : (0 ≤ q.x ∧ q.x ≤ 1) ∧ 0 ≤ q.y ∧ q.y ≤ 1) :
    (p.x ≤ q.x → (createPoint fl p w h).x ≤ (createPoint fl q w h).x) ∧
    (p.y ≤ q.y → (createPoint fl p w h).y ≤ (createPoint fl q w h).y) := by
  rw [createPoint_eq R hw hh hp, createPoint_eq R hw hh hq]
  have key : ∀ (n : Nat) (x y : ℚ), x ≤ y → fastRound fl (fl (x * n)) ≤ fastRound fl (fl (y * n)) := by
    intro n x y h
    unfold fastRound
    refine trunc_mono (R.mono _ _ ?_)
    have := R.mono (x * n) (y * n) (mul_le_mul_of_nonneg_right h (by positivity))
    linarith
  exact ⟨key w _ _, key h _ _⟩

example : (createPoint (rne 53) ⟨1 / 3, 1 / 2⟩ 500 400).x ≤ (createPoint (rne 53) ⟨2 / 5, 1 / 7⟩ 500 400).x :=
  (c39_monotone (rne_rnd (by norm_num)) (w := 500) (h := 400) (by norm_num) (by norm_num) ⟨1 / 3, 1 / 2⟩ ⟨2 / 5, 1 / 7⟩ (by norm_num) (by norm_num)).1
    (by norm_num)

theorem fastRound_near {fl : ℚ → ℚ} (R : Rnd 53 fl) {w : Nat} (hw : w ≤ 32767) {x : ℚ} (h0 : 0 ≤ x) (h1 : x ≤ 1) :
    |(fastRound fl (fl (x * w)) : ℚ) - x * w| ≤ 1 / 2 + 1 / 2 ^ 36 := by
  have hw' : (w : ℚ) ≤ 32767 := by exact_mod_cast hw
  have w0 : (0 : ℚ) ≤ w := by positivity
  have hx0 : 0 ≤ x * w := by positivity
  have hx1 : x * w ≤ 32767 := by nlinarith
  have r1 := R.err (x * w)
  rw [abs_of_nonneg hx0] at r1
  have a0 : 0 ≤ fl (x * w) := R.nonneg hx0
  have r2 := R.err (fl (x * w) + 1 / 2)
  rw [abs_of_nonneg (a := fl (x * w) + 1 / 2) (by linarith)] at r2
  unfold fastRound trunc
  have b0 : 0 ≤ fl (fl (x * w) + 1 / 2) := R.nonneg (by linarith)
  rw [if_pos b0]
  have f1 := Int.floor_le (fl (fl (x * w) + 1 / 2))
  have f2 := Int.lt_floor_add_one (fl (fl (x * w) + 1 / 2))
  rw [abs_le] at *
  norm_num at r1 r2 ⊢
  constructor <;> linarith

/-- **C39**: the point is within half a pixel of the exact location, up to 2^-36 of rounding. -/
theorem c39_near_partial {fl : ℚ → ℚ} (R : Rnd 53 fl) {w h : Nat} (hw : w ≤ 32767) (hh : h ≤ 32767) (p : NP)
    (hp : (0 ≤ p.x ∧ p.x ≤ 1) ∧ 0 ≤ p.y ∧ p.y ≤ 1) :
    |((createPoint fl p w h).x : ℚ) - p.x * w| ≤ 1 / 2 + 1 / 2 ^ 36 ∧ |((createPoint fl p w h).y : ℚ) - p.y * h| ≤ 1 / 2 + 1 / 2 ^ 36 := by
  rw [createPoint_eq R hw hh hp]
  exact ⟨fastRound_near R hw hp.1.1 hp.1.2, fastRound_near R hh hp.2.1 hp.2.2⟩

/-- **C39** in exact arithmetic: within half a pixel. -/
theorem c39_near_exact {w h : Nat} (hw : w ≤ 32767) (hh : h ≤ 32767) (p : NP) (hp : (0 ≤ p.x ∧ p.x ≤ 1) ∧ 0 ≤ p.y ∧ p.y ≤ 1) :
    |((createPoint id p w h).x : ℚ) - p.x * w| ≤ 1 / 2 ∧ |((createPoint id p w h).y : ℚ) - p.y * h| ≤ 1 / 2 := by
  rw [createPoint_eq (id_rnd 53) hw hh hp]
  have key : ∀ (n : Nat) (x : ℚ), 0 ≤ x → |(fastRound id (id (x * n)) : ℚ) - x * n| ≤ 1 / 2 := by
    intro n x h
    unfold fastRound trunc
    simp only [id_eq]
    rw [if_pos (by positivity)]
    have f1 := Int.floor_le (x * n + 1 / 2)
    have f2 := Int.lt_floor_add_one (x * n + 1 / 2)
    rw [abs_le]
    constructor <;> linarith
  exact ⟨key w _ hp.1.1, key h _ hp.2.1⟩

/-- With IEEE doubles the exact half pixel is missed: the largest double below 1/2 is rounded up to 1 in an
image one pixel wide. -/
theorem c39_half_pixel_false : ∃ p : NP, ((0 ≤ p.x ∧ p.x ≤ 1) ∧ 0 ≤ p.y ∧ p.y ≤ 1) ∧ Rep 53 p.x ∧
    1 / 2 < |((createPoint (rne 53) p 1 1).x : ℚ) - p.x * (1 : Nat)| := by
  refine ⟨⟨(2 ^ 53 - 1) / 2 ^ 54, 0⟩, by norm_num, ⟨2 ^ 53 - 1, -54, by norm_num, by norm_num⟩, ?_⟩
  have : (createPoint (rne 53) ⟨(2 ^ 53 - 1) / 2 ^ 54, 0⟩ 1 1).x = 1 := by decide +kernel
  rw [this]
  rw [abs_of_pos (by norm_num)]
  norm_num

/-! ### Cases meeting the hypotheses of `c32_triangle` and `c32_ieee_partial` -/

example : ∃ v, triValue id 0 (testImg id) 3 tri2 = some v ∧ 0 ≤ v :=
  let ⟨v, h1, h2, _⟩ := c32_triangle 0 (w := 31) (h := 31) (by norm_num) (by norm_num) _ (t := tri2) (by unfold InImage; decide)
    (by unfold NonDegenerate tri2 area2 loc; norm_num) (bs := 3) (by norm_num) (by norm_num) (by decide +kernel)
  ⟨v, h1, h2⟩

example : ∃ v, triValue (rne 53) 0 (testImg (rne 53)) 3 tri2 = some v :=
  let ⟨v, h1, _⟩ := c32_ieee_partial 0 (w := 31) (h := 31) (by norm_num) (by norm_num) _ (t := tri2) (by unfold InImage; decide)
    (by unfold NonDegenerate tri2 area2 loc; norm_num) (bs := 3) (by norm_num) (by norm_num) (by decide +kernel)
  ⟨v, h1⟩

example : createPoint (rne 53) ⟨1 / 3, 1⟩ 500 400 = ⟨167, 400⟩ := by decide +kernel

end Verif.Props

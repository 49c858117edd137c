import Verif.Props.FitnessPos
import Verif.Props.Small

/-!
# The fitness is that of the rendered picture (C87)

`fitness/triangles.go` never sees a picture: it works with sums over blocks of pixels.  `render/triangles.go` colours the triangles independently.  C87 says
that the two agree: the fitness is the share of the image covered by triangles minus the normalised squared error of the rendered picture.
-/

namespace Verif.Props

open Verif.Tri Verif.Spec Verif.Float Verif.Raster Verif.Fit Verif.Small
open Verif.Incr hiding trunc

/-! ### Specification -/

/-- Squared distance of two colours. -/
def rgbDist (a b : RGB) : ℚ := (a.r - b.r) ^ 2 + (a.g - b.g) ^ 2 + (a.b - b.b) ^ 2

open Classical in
/-- The colour that a list of coloured shapes shows at a pixel; `cov` says which pixels a shape covers. -/
noncomputable def shade {α : Type} (cov : α → Int × Int → Prop) (L : List (α × RGB)) (q : Int × Int) : Option RGB :=
  (L.find? fun e => decide (cov e.1 q)).map Prod.snd

/-- Squared error of the picture shown by coloured shapes, over all pixels of the image that are painted. -/
noncomputable def pictureErr {α : Type} (I : Img) (cov : α → Int × Int → Prop) (L : List (α × RGB)) : ℚ :=
  ∑ x ∈ Finset.range I.w, ∑ y ∈ Finset.range I.h, ((shade cov L (x, y)).map (rgbDist (I.px x y))).getD 0

/-- A triangle covers the pixels whose lattice point it owns (C27). -/
def OwnsPixel (t : Tri) (q : Int × Int) : Prop := Owns t ⟨q.1 + 1, q.2⟩

/-! ### Sums over pixels and over triangles -/

section
open Classical

theorem shade_sum {α : Type} (cov : α → Int × Int → Prop) (q : Int × Int) (d : RGB → ℚ) : ∀ L : List (α × RGB),
    (L.map fun e => if cov e.1 q then 1 else 0).sum ≤ 1 →
    ((shade cov L q).map d).getD 0 = (L.map fun e => if cov e.1 q then d e.2 else 0).sum := by
  intro L
  induction L with
  | nil => intro _; rfl
  | cons e L ih =>
    intro h
    simp only [List.map_cons, List.sum_cons] at h ⊢
    unfold shade
    rw [List.find?_cons]
    by_cases hc : cov e.1 q
    · simp only [hc, decide_true, Option.map_some, Option.getD_some, if_true] at h ⊢
      have : (L.map fun e => if cov e.1 q then d e.2 else 0).sum = 0 := by
        refine List.sum_eq_zero ?_
        intro x hx
        obtain ⟨e', he', rfl⟩ := List.mem_map.mp hx
        have h0 : (L.map fun e => if cov e.1 q then 1 else 0).sum = 0 := by omega
        have := List.single_le_sum (l := L.map fun e => if cov e.1 q then 1 else 0) (fun _ _ => Nat.zero_le _) _ (List.mem_map_of_mem he')
        rw [h0] at this
        by_cases hc' : cov e'.1 q
        · simp [hc'] at this
        · simp [hc']
      rw [this, add_zero]
    · simp only [hc, decide_false, if_false, zero_add] at h ⊢
      exact ih h

/-- The error of a picture, summed by shapes. -/
theorem picture_shapes {α : Type} {I : Img} {cov : α → Int × Int → Prop} {px : α → List (Int × Int)} {L : List (α × RGB)}
    (hcov : ∀ e ∈ L, ∀ q, IsPixel I.w I.h q → (cov e.1 q ↔ q ∈ px e.1)) (hpx : ∀ e ∈ L, (px e.1).Nodup ∧ ∀ q ∈ px e.1, IsPixel I.w I.h q)
    (once : ∀ q, (L.map fun e => (px e.1).count q).sum ≤ 1) :
    pictureErr I cov L = (L.map fun e => ((px e.1).map fun q => rgbDist (I.px q.1.toNat q.2.toNat) e.2).sum).sum := by
  have one : ∀ e ∈ L, ((px e.1).map fun q => rgbDist (I.px q.1.toNat q.2.toNat) e.2).sum =
      ∑ x ∈ Finset.range I.w, ∑ y ∈ Finset.range I.h, if cov e.1 ((x : Int), (y : Int)) then rgbDist (I.px x y) e.2 else 0 := by
    intro e he
    obtain ⟨hn, hin⟩ := hpx e he
    rw [← List.sum_toFinset _ hn, ← Finset.sum_product', ← Finset.sum_filter]
    refine Finset.sum_bij' (fun q _ => (q.1.toNat, q.2.toNat)) (fun q _ => ((q.1 : Int), (q.2 : Int))) ?_ ?_ ?_ ?_ ?_
    · intro q hq
      rw [List.mem_toFinset] at hq
      have hp := hin q hq
      obtain ⟨a, b, c, d⟩ := hp
      rw [Finset.mem_filter, Finset.mem_product, Finset.mem_range, Finset.mem_range]
      refine ⟨⟨by omega, by omega⟩, ?_⟩
      have : (((q.1.toNat : ℕ) : ℤ), ((q.2.toNat : ℕ) : ℤ)) = q := Prod.ext (Int.toNat_of_nonneg (by omega)) (Int.toNat_of_nonneg (by omega))
      simp only [this]
      exact (hcov e he q (hin q hq)).mpr hq
    · intro q hq
      rw [Finset.mem_filter, Finset.mem_product, Finset.mem_range, Finset.mem_range] at hq
      rw [List.mem_toFinset]
      refine (hcov e he _ ?_).mp hq.2
      unfold IsPixel
      simp only
      omega
    · intro q hq
      rw [List.mem_toFinset] at hq
      obtain ⟨a, b, c, d⟩ := hin q hq
      exact Prod.ext (Int.toNat_of_nonneg (by omega)) (Int.toNat_of_nonneg (by omega))
    · intro q _
      simp
    · intro q _
      rfl
  rw [List.map_congr_left one]
  unfold pictureErr
  have pt : ∀ x ∈ Finset.range I.w, ∀ y ∈ Finset.range I.h, ((shade cov L ((x : Int), (y : Int))).map (rgbDist (I.px x y))).getD 0 =
      (L.map fun e => if cov e.1 ((x : Int), (y : Int)) then rgbDist (I.px x y) e.2 else 0).sum := by
    intro x hx y hy
    rw [Finset.mem_range] at hx hy
    refine shade_sum cov _ _ L ?_
    refine le_trans (le_of_eq ?_) (once ((x : Int), (y : Int)))
    congr 1
    refine List.map_congr_left fun e he => ?_
    have k := hcov e he ((x : Int), (y : Int)) (by unfold IsPixel; simp only; omega)
    by_cases hq : ((x : Int), (y : Int)) ∈ px e.1
    · rw [if_pos (k.mpr hq), List.count_eq_one_of_mem (hpx e he).1 hq]
    · rw [if_neg (fun h => hq (k.mp h)), List.count_eq_zero_of_not_mem hq]
  rw [Finset.sum_congr rfl fun x hx => Finset.sum_congr rfl fun y hy => pt x hx y hy]
  clear pt one hcov hpx once
  induction L with
  | nil => simp
  | cons e L ih =>
    simp only [List.map_cons, List.sum_cons, Finset.sum_add_distrib] at ih ⊢
    rw [ih]

end

/-! ### C87 in exact arithmetic -/

section
variable {w h : Nat} {T : List Tri}

theorem px_id (f : Nat → Nat → Fin 256 × Fin 256 × Fin 256) (q : Int × Int) (c : RGB) :
    65025 * rgbDist ((ofBytes id w h f).px q.1.toNat q.2.toNat) c = dist2 (byteCol f q) (255 * c.r, 255 * c.g, 255 * c.b) := by
  unfold rgbDist dist2 byteCol ofBytes convertColor
  simp only [id_eq]
  ring

theorem err_id (f : Nat → Nat → Fin 256 × Fin 256 × Fin 256) (c : RGB) (qs : List (Int × Int)) :
    65025 * (qs.map fun q => rgbDist ((ofBytes id w h f).px q.1.toNat q.2.toNat) c).sum = sqErr (qs.map (byteCol f)) (255 * c.r, 255 * c.g, 255 * c.b) := by
  unfold sqErr
  rw [List.map_map, ← List.sum_map_mul_left]
  congr 1
  exact List.map_congr_left fun q _ => px_id f q c

/-- A colouring of the triangles. -/
theorem picture_mesh (z : ℚ) {fl : ℚ → ℚ} (R : Rnd 53 fl) (hw : w ≤ 32767) (hh : h ≤ 32767) (M : Mesh w h T) {I : Img} (hIw : I.w = w) (hIh : I.h = h)
    {cov : Tri → Int × Int → Prop} (hcov : ∀ t ∈ T, ∀ q, IsPixel w h q → (cov t q ↔ q ∈ DDATriangle fl z t)) {cs : List RGB} (hl : cs.length = T.length) :
    pictureErr I cov (T.zip cs) =
      ((T.zip cs).map fun e => ((DDATriangle fl z e.1).map fun q => rgbDist (I.px q.1.toNat q.2.toNat) e.2).sum).sum := by
  have mem : ∀ e ∈ T.zip cs, e.1 ∈ T := fun e he => (List.of_mem_zip he).1
  refine picture_shapes (px := DDATriangle fl z) ?_ ?_ ?_
  · intro e he q hq
    rw [hIw, hIh] at hq
    exact hcov e.1 (mem e he) q hq
  · intro e he
    have h1 := c28_blocks (fun a b => R.mono a b) z e.1 (bs := 1) le_rfl
    refine ⟨(h1.1.nodup_iff).mp h1.2, ?_⟩
    rw [hIw, hIh]
    exact (c29_bounds R z (by omega) (by omega) e.1 (M.img e.1 (mem e he)) (bs := 1) le_rfl).2.2
  · intro q
    have := M.once fl R z q
    unfold visits at this
    have e : ((T.zip cs).map fun e => (DDATriangle fl z e.1).count q) = T.map fun t => (DDATriangle fl z t).count q := by
      have : (T.zip cs).map Prod.fst = T := List.map_fst_zip (by omega)
      conv_rhs => rw [← this]
      rw [List.map_map]
      rfl
    rwa [e]


theorem zip_self {α β : Type} (g : α → β) (l : List α) : l.zip (l.map g) = l.map fun a => (a, g a) := by
  induction l with
  | nil => rfl
  | cons a l ih => simp only [List.map_cons, List.zip_cons_cons, ih]

theorem zip_le {α β : Type} {D : α → ℚ} {E : α → β → ℚ} : ∀ {l : List α} {cs : List β}, cs.length = l.length → (∀ a ∈ l, ∀ c, D a ≤ E a c) →
    (l.map D).sum ≤ ((l.zip cs).map fun e => E e.1 e.2).sum := by
  intro l
  induction l with
  | nil => intro cs _ _; simp
  | cons a l ih =>
    intro cs hl h
    cases cs with
    | nil => simp at hl
    | cons c cs =>
      simp only [List.length_cons, Nat.add_right_cancel_iff] at hl
      simp only [List.zip_cons_cons, List.map_cons, List.sum_cons]
      exact add_le_add (h a (by simp) c) (ih hl fun b hb => h b (by simp [hb]))

theorem shade_isSome {α : Type} {cov : α → Int × Int → Prop} {L : List (α × RGB)} {q : Int × Int} {c : RGB} (h : shade cov L q = some c) :
    ∃ e ∈ L, cov e.1 q ∧ e.2 = c := by
  unfold shade at h
  rw [Option.map_eq_some_iff] at h
  obtain ⟨e, he, rfl⟩ := h
  exact ⟨e, List.mem_of_find?_eq_some he, by simpa using List.find?_some he, rfl⟩

theorem rgbDist_nonneg (a b : RGB) : 0 ≤ rgbDist a b := by unfold rgbDist; positivity

theorem rgbDist_zero {a b : RGB} : rgbDist a b = 0 ↔ b = a := by
  constructor
  · intro h
    unfold rgbDist at h
    have h1 := sq_nonneg (a.r - b.r)
    have h2 := sq_nonneg (a.g - b.g)
    have h3 := sq_nonneg (a.b - b.b)
    have e1 : (a.r - b.r) ^ 2 = 0 := by linarith
    have e2 : (a.g - b.g) ^ 2 = 0 := by linarith
    have e3 : (a.b - b.b) ^ 2 = 0 := by linarith
    rw [pow_eq_zero_iff two_ne_zero, sub_eq_zero] at e1 e2 e3
    cases a; cases b
    simp only at e1 e2 e3
    rw [e1, e2, e3]
  · rintro rfl
    unfold rgbDist
    ring

theorem pictureErr_zero {α : Type} {I : Img} {cov : α → Int × Int → Prop} {L : List (α × RGB)} :
    0 ≤ pictureErr I cov L ∧ (pictureErr I cov L = 0 ↔ ∀ x y : Nat, x < I.w → y < I.h → ∀ c, shade cov L (x, y) = some c → c = I.px x y) := by
  have nn : ∀ x y : Nat, 0 ≤ ((shade cov L ((x : Int), (y : Int))).map (rgbDist (I.px x y))).getD 0 := by
    intro x y
    cases shade cov L ((x : Int), (y : Int)) with
    | none => exact le_rfl
    | some c => exact rgbDist_nonneg _ _
  unfold pictureErr
  refine ⟨Finset.sum_nonneg fun x _ => Finset.sum_nonneg fun y _ => nn x y, ?_⟩
  rw [Finset.sum_eq_zero_iff_of_nonneg fun x _ => Finset.sum_nonneg fun y _ => nn x y]
  constructor
  · intro h x y hx hy c hc
    have h1 := h x (Finset.mem_range.mpr hx)
    rw [Finset.sum_eq_zero_iff_of_nonneg fun y _ => nn x y] at h1
    have h2 := h1 y (Finset.mem_range.mpr hy)
    rw [hc] at h2
    exact rgbDist_zero.mp h2
  · intro h x hx
    refine Finset.sum_eq_zero fun y hy => ?_
    cases hc : shade cov L ((x : Int), (y : Int)) with
    | none => rfl
    | some c => exact rgbDist_zero.mpr (h x y (Finset.mem_range.mp hx) (Finset.mem_range.mp hy) c hc)

/-- The colour the renderer gives to a triangle. -/
def paint (fl : ℚ → ℚ) (z : ℚ) (I : Img) (t : Tri) : RGB := ((renderTri fl z I t).bind Prod.snd).getD ⟨0, 0, 0⟩

theorem avg_mean (f : Nat → Nat → Fin 256 × Fin 256 × Fin 256) {qs : List (Int × Int)} {c : RGB}
    (hc : ∀ ch ∈ channels, ch c = avgOf ((qs.map fun q => (ofBytes id w h f).px q.1.toNat q.2.toNat).map ch)) :
    (255 * c.r, 255 * c.g, 255 * c.b) = mean (qs.map (byteCol f)) := by
  have h1 := hc RGB.r (by simp [channels])
  have h2 := hc RGB.g (by simp [channels])
  have h3 := hc RGB.b (by simp [channels])
  rw [h1, h2, h3]
  unfold avgOf mean
  simp only [List.map_map, List.length_map]
  have k : ∀ a b : Int × Int → ℚ, (∀ q, 255 * a q = b q) → 255 * ((qs.map a).sum / qs.length) = (qs.map b).sum / qs.length := by
    intro a b hab
    rw [← mul_div_assoc, ← List.sum_map_mul_left]
    congr 2
    exact List.map_congr_left fun q _ => hab q
  refine Prod.ext (k _ _ ?_) (Prod.ext (k _ _ ?_) (k _ _ ?_)) <;> intro q <;>
    simp only [Function.comp_apply, byteCol, ofBytes, convertColor, id_eq] <;> ring

theorem finish_id {I : Img} (hw1 : 1 ≤ I.w) (hh1 : 1 ≤ I.h) (E A : ℚ) :
    finish id I (65025 * E) A = A / (I.w * I.h) - E / (3 * (I.w * I.h)) := by
  have h3 : (I.w : ℚ) ≠ 0 := by positivity
  have h4 : (I.h : ℚ) ≠ 0 := by positivity
  unfold finish maxPixelDifference
  simp only [id_eq]
  push_cast
  field_simp
  ring

/-- **C87** in exact arithmetic: for an 8-bit image of at most 6876000 pixels the fitness is the share of the image covered by triangles minus the
squared error, per channel and pixel, of the picture that `TrianglesOnImage` describes; no other colours of the triangles give a larger value; and the
fitness is 1 only if the areas add up to the image and all painted pixels have the right colour. -/
theorem c87_exact (z : ℚ) (f : Nat → Nat → Fin 256 × Fin 256 × Fin 256) {bs : Nat} (hb : 1 ≤ bs) (hb' : bs ≤ 16)
    (hw1 : 1 ≤ w) (hh1 : 1 ≤ h) (hw : w ≤ 32767) (hh : h ≤ 32767) (hwh : w * h ≤ 6876000) (M : Mesh w h T) :
    ∃ out cs v, trianglesOnImage id z (ofBytes id w h f) T = some out ∧ out.map Prod.snd = cs.map some ∧
      evalTris id z (ofBytes id w h f) bs T = some v ∧
      v = (T.map area).sum / (w * h) - pictureErr (ofBytes id w h f) OwnsPixel (T.zip cs) / (3 * (w * h)) ∧
      (∀ cs' : List RGB, cs'.length = T.length →
        (T.map area).sum / (w * h) - pictureErr (ofBytes id w h f) OwnsPixel (T.zip cs') / (3 * (w * h)) ≤ v) ∧
      (v = 1 ↔ (T.map area).sum = w * h ∧
        ∀ x y : Nat, x < w → y < h → ∀ c, shade OwnsPixel (T.zip cs) (x, y) = some c → c = (ofBytes id w h f).px x y) := by
  have R := id_rnd 53
  set I := ofBytes id w h f with hI
  have hlen := length_visits R z hw hh M
  have hw0 : (0 : ℚ) < w := by exact_mod_cast hw1
  have hh0 : (0 : ℚ) < h := by exact_mod_cast hh1
  have hP : (0 : ℚ) < w * h := by positivity
  -- the colours
  have hcol : ∀ t ∈ T, renderTri id z I t = some ((vlist t).map (fun p => ⟨(p.x : ℚ) / I.w, (p.y : ℚ) / I.h⟩), some (paint id z I t)) ∧
      ∀ ch ∈ channels, ch (paint id z I t) = avgOf ((palette I (DDATriangle id z t) (vlist t)).map ch) := by
    intro t ht
    obtain ⟨c, h1, h2⟩ := c53_colour (I := I) hw1 hh1 (show w ≤ 32768 by omega) (show h ≤ 32768 by omega) z (t := t) (M.img t ht)
    have : paint id z I t = c := by unfold paint; rw [h1]; rfl
    rw [this]
    exact ⟨h1, fun ch hch => (h2 ch hch).1⟩
  -- the value of a triangle
  have hval : ∀ t ∈ T, ∀ c, sumsDiff id (sumsOf (triPixels id z I t)) = 65025 * ((DDATriangle id z t).map fun q => rgbDist (I.px q.1.toNat q.2.toNat) (paint id z I t)).sum ∧
      sumsDiff id (sumsOf (triPixels id z I t)) ≤ 65025 * ((DDATriangle id z t).map fun q => rgbDist (I.px q.1.toNat q.2.toNat) c).sum := by
    intro t ht c
    have one := List.single_le_sum (l := T.map fun t => (DDATriangle id z t).length) (fun _ _ => Nat.zero_le _) _ (List.mem_map_of_mem ht)
    obtain ⟨v, hv, -, he, hle⟩ := c32_triangle z (by omega) (by omega) f (M.img t ht) (M.nondeg t ht) hb hb' (by omega)
    unfold triValue at hv
    rw [triSums_of R z (ofBytes_ok R w h f) (by show w ≤ 32768; omega) (by show h ≤ 32768; omega) hb hb' (M.img t ht) (M.nondeg t ht), Option.map_some, Option.some_inj] at hv
    rw [hv, err_id, err_id]
    refine ⟨?_, hle _⟩
    by_cases hne : DDATriangle id z t = []
    · rw [he, hne]; rfl
    · rw [he, avg_mean (w := w) (h := h) f (qs := DDATriangle id z t)]
      intro ch hch
      have := (hcol t ht).2 ch hch
      unfold palette at this
      rwa [if_neg hne] at this
  have hcov : ∀ t ∈ T, ∀ q, IsPixel w h q → (OwnsPixel t q ↔ q ∈ DDATriangle id z t) := by
    rintro t ht ⟨x, y⟩ hq
    unfold OwnsPixel
    have := c27_pixels_right z t (x := x) hq.1 y
    exact_mod_cast this.symm
  have hpic : ∀ cs : List RGB, cs.length = T.length → pictureErr I OwnsPixel (T.zip cs) =
      ((T.zip cs).map fun e => ((DDATriangle id z e.1).map fun q => rgbDist (I.px q.1.toNat q.2.toNat) e.2).sum).sum :=
    fun cs hl => picture_mesh z R hw hh M rfl rfl hcov hl
  have hsum : ((T.map fun t => sumsDiff id (sumsOf (triPixels id z I t))).foldl (fun s x => id (s + x)) 0) = (T.map fun t => sumsDiff id (sumsOf (triPixels id z I t))).sum := by
    have := foldl_id (T.map fun t => sumsDiff id (sumsOf (triPixels id z I t))) 0
    simpa using this
  have hD : (T.map fun t => sumsDiff id (sumsOf (triPixels id z I t))).sum = 65025 * pictureErr I OwnsPixel (T.zip (T.map (paint id z I))) := by
    rw [hpic _ (by simp), zip_self, List.map_map, ← List.sum_map_mul_left]
    congr 1
    exact List.map_congr_left fun t ht => (hval t ht ⟨0, 0, 0⟩).1
  have hv : evalTris id z I bs T = some ((T.map area).sum / (w * h) - pictureErr I OwnsPixel (T.zip (T.map (paint id z I))) / (3 * (w * h))) := by
    rw [evalTris_eq R z (ofBytes_ok R w h f) hb hb' hw hh M, hsum, hD, finish_id hw1 hh1]
    rfl
  refine ⟨_, T.map (paint id z I), _, mapM_spec fun t ht => (hcol t ht).1, ?_, hv, rfl, ?_, ?_⟩
  · rw [List.map_map, List.map_map]; rfl
  · intro cs' hl
    have : (T.map fun t => sumsDiff id (sumsOf (triPixels id z I t))).sum ≤ 65025 * pictureErr I OwnsPixel (T.zip cs') := by
      rw [hpic _ hl, ← List.sum_map_mul_left]
      exact zip_le (E := fun t c => 65025 * ((DDATriangle id z t).map fun q => rgbDist (I.px q.1.toNat q.2.toNat) c).sum) hl fun t ht c => (hval t ht c).2
    rw [hD] at this
    have := div_le_div_of_nonneg_right (show pictureErr I OwnsPixel (T.zip (T.map (paint id z I))) ≤ pictureErr I OwnsPixel (T.zip cs') by linarith)
      (show (0 : ℚ) ≤ 3 * (w * h) by positivity)
    linarith
  · obtain ⟨p0, p1⟩ := pictureErr_zero (I := I) (cov := OwnsPixel) (L := T.zip (T.map (paint id z I)))
    have a1 : (T.map area).sum / (w * h) ≤ 1 := by rw [div_le_one hP]; exact M.area
    have b0 : 0 ≤ pictureErr I OwnsPixel (T.zip (T.map (paint id z I))) / (3 * (w * h)) := by positivity
    have hstep : (T.map area).sum / (w * h) - pictureErr I OwnsPixel (T.zip (T.map (paint id z I))) / (3 * (w * h)) = 1 ↔
        (T.map area).sum / (w * h) = 1 ∧ pictureErr I OwnsPixel (T.zip (T.map (paint id z I))) / (3 * (w * h)) = 0 := by
      constructor
      · intro e; constructor <;> linarith
      · rintro ⟨e1, e2⟩; rw [e1, e2, sub_zero]
    rw [hstep, div_eq_one_iff_eq hP.ne', div_eq_zero_iff, or_iff_left (by positivity), p1]
    rfl

end

/-! ### C87 with IEEE arithmetic -/

section
variable {w h : Nat} {T : List Tri}

/-- A colour as a triple. -/
def triple (c : RGB) : ℚ × ℚ × ℚ := (c.r, c.g, c.b)

/-- All channels in `[0, 1]`. -/
def Unit01 (c : RGB) : Prop := ∀ ch ∈ channels, 0 ≤ ch c ∧ ch c ≤ 1

theorem Unit01.all {c : RGB} (h : Unit01 c) : (0 ≤ c.r ∧ c.r ≤ 1) ∧ (0 ≤ c.g ∧ c.g ≤ 1) ∧ 0 ≤ c.b ∧ c.b ≤ 1 :=
  ⟨h RGB.r (by simp [channels]), h RGB.g (by simp [channels]), h RGB.b (by simp [channels])⟩

theorem chan_close {fl : ℚ → ℚ} (R : Rnd 53 fl) (k : Fin 256) {c : ℚ} (h0 : 0 ≤ c) (h1 : c ≤ 1) :
    |65025 * (convertColor fl k - c) ^ 2 - (((k : ℕ) : ℚ) - 255 * c) ^ 2| ≤ 1 / 2 ^ 36 := by
  have hk : ((k : Nat) : ℚ) ≤ 255 := by exact_mod_cast Nat.le_of_lt_succ k.isLt
  have hk0 : (0 : ℚ) ≤ ((k : Nat) : ℚ) := by positivity
  obtain ⟨a0, a1⟩ := convert_range R k
  have e := R.err (((k : ℕ) : ℚ) / 255)
  have e' : |convertColor fl k - ((k : ℕ) : ℚ) / 255| ≤ 1 / 2 ^ 53 := by
    refine le_trans e ?_
    rw [abs_of_nonneg (by positivity)]
    exact div_le_div_of_nonneg_right (by rw [div_le_one (by norm_num)]; exact hk) (by positivity)
  generalize convertColor fl k = a at *
  generalize ((k : ℕ) : ℚ) = b at *
  have : 65025 * (a - c) ^ 2 - (b - 255 * c) ^ 2 = 65025 * ((a - b / 255) * (a + b / 255 - 2 * c)) := by ring
  rw [this, abs_mul, abs_mul]
  have hb : 0 ≤ b / 255 := by positivity
  have hb1 : b / 255 ≤ 1 := by rw [div_le_one (by norm_num)]; exact hk
  have s : |a + b / 255 - 2 * c| ≤ 2 := by rw [abs_le]; constructor <;> linarith
  have := mul_le_mul e' s (abs_nonneg _) (by positivity)
  rw [abs_of_nonneg (by norm_num : (0 : ℚ) ≤ 65025)]
  norm_num at this ⊢
  linarith

theorem px_close {fl : ℚ → ℚ} (R : Rnd 53 fl) (f : Nat → Nat → Fin 256 × Fin 256 × Fin 256) (q : Int × Int) {c : RGB} (hc : Unit01 c) :
    |65025 * rgbDist ((ofBytes fl w h f).px q.1.toNat q.2.toNat) c - dist2 (byteCol f q) (255 * c.r, 255 * c.g, 255 * c.b)| ≤ 3 / 2 ^ 36 := by
  obtain ⟨⟨r0, r1⟩, ⟨g0, g1⟩, b0, b1⟩ := hc.all
  have k1 := abs_le.mp (chan_close R (f q.1.toNat q.2.toNat).1 r0 r1)
  have k2 := abs_le.mp (chan_close R (f q.1.toNat q.2.toNat).2.1 g0 g1)
  have k3 := abs_le.mp (chan_close R (f q.1.toNat q.2.toNat).2.2 b0 b1)
  unfold rgbDist dist2 byteCol ofBytes
  simp only
  rw [abs_le]
  constructor <;> linarith

theorem err_close {fl : ℚ → ℚ} (R : Rnd 53 fl) (f : Nat → Nat → Fin 256 × Fin 256 × Fin 256) {c : RGB} (hc : Unit01 c) (qs : List (Int × Int)) :
    |65025 * (qs.map fun q => rgbDist ((ofBytes fl w h f).px q.1.toNat q.2.toNat) c).sum - sqErr (qs.map (byteCol f)) (255 * c.r, 255 * c.g, 255 * c.b)|
      ≤ qs.length * (3 / 2 ^ 36) := by
  unfold sqErr
  induction qs with
  | nil => simp
  | cons q qs ih =>
    simp only [List.map_cons, List.sum_cons, List.length_cons]
    have k := abs_le.mp (px_close (w := w) (h := h) R f q hc)
    have i := abs_le.mp ih
    push_cast
    rw [abs_le]
    constructor <;> linarith

theorem err_triple (l : List RGB) (c : RGB) : (l.map fun p => rgbDist p c).sum = sqErr (l.map triple) (triple c) := by
  unfold sqErr
  rw [List.map_map]
  rfl

/-- The mean of colours. -/
def meanRGB (l : List RGB) : RGB := ⟨avgOf (l.map RGB.r), avgOf (l.map RGB.g), avgOf (l.map RGB.b)⟩

theorem mean_triple (l : List RGB) : mean (l.map triple) = triple (meanRGB l) := by
  unfold mean triple meanRGB avgOf
  simp only [List.map_map, List.length_map]
  rfl

theorem meanRGB_chan (l : List RGB) : ∀ ch ∈ channels, ch (meanRGB l) = avgOf (l.map ch) := by
  intro ch hch
  simp only [channels, List.mem_cons, List.not_mem_nil, or_false] at hch
  rcases hch with rfl | rfl | rfl <;> rfl

theorem meanRGB_unit {l : List RGB} (hl : l ≠ []) (h : ∀ c ∈ l, Unit01 c) : Unit01 (meanRGB l) := by
  intro ch hch
  rw [meanRGB_chan l ch hch]
  refine avgOf_range (by simpa using hl) ?_
  intro x hx
  obtain ⟨c, hc, rfl⟩ := List.mem_map.mp hx
  exact h c hc ch hch

theorem ofBytes_unit {fl : ℚ → ℚ} (R : Rnd 53 fl) (f : Nat → Nat → Fin 256 × Fin 256 × Fin 256) (x y : Nat) : Unit01 ((ofBytes fl w h f).px x y) := by
  intro ch hch
  simp only [channels, List.mem_cons, List.not_mem_nil, or_false] at hch
  rcases hch with rfl | rfl | rfl <;> exact convert_range R _

/-- What the evaluator and the renderer do with the pixels of a shape, from the bounds of its value and its colour. -/
theorem value_core (f : Nat → Nat → Fin 256 × Fin 256 × Fin 256) {qs : List (Int × Int)} (hne : qs ≠ []) {I : Img} (hI : I = ofBytes (rne 53) w h f) {v : ℚ} {c : RGB}
    (hu : ∀ c, v ≤ sqErr (qs.map (byteCol f)) c + 1 / 1000)
    (hl : sqErr (qs.map (byteCol f)) (mean (qs.map (byteCol f))) - qs.length - 1 / 1000 ≤ v)
    (h2 : ∀ ch ∈ channels, |ch c - avgOf ((qs.map fun q => I.px q.1.toNat q.2.toNat).map ch)| ≤ avgOf ((qs.map fun q => I.px q.1.toNat q.2.toNat).map ch) / 2 ^ 22)
    {E : RGB → ℚ} (hE : E = fun c => (qs.map fun q => rgbDist (I.px q.1.toNat q.2.toNat) c).sum) :
    v ≤ 65025 * E c + qs.length / 2 ^ 30 + 1 / 1000 ∧ 65025 * E c - qs.length * (1 + 1 / 2 ^ 20) - 1 / 1000 ≤ v ∧
      0 ≤ E c ∧ E c ≤ 4 * qs.length ∧ ∀ c', E c ≤ E c' + qs.length / 2 ^ 40 := by
  have R : Rnd 53 (rne 53) := rne_rnd (by norm_num)
  subst hE
  set cols := qs.map fun q => I.px q.1.toNat q.2.toNat with hcols
  have hcne : cols ≠ [] := by simpa [cols] using hne
  have cu : ∀ c ∈ cols, Unit01 c := by
    intro c hc
    obtain ⟨q, -, rfl⟩ := List.mem_map.mp hc
    rw [hI]
    exact ofBytes_unit R f _ _
  set m := meanRGB cols with hm
  have mu : Unit01 m := meanRGB_unit hcne cu
  have Ecols : ∀ c : RGB, (qs.map fun q => rgbDist (I.px q.1.toNat q.2.toNat) c).sum = sqErr (cols.map triple) (triple c) := by
    intro c
    rw [← err_triple, hcols, List.map_map]
    rfl
  have hbne : qs.map (byteCol f) ≠ [] := by simpa using hne
  have n0 : (0 : ℚ) ≤ qs.length := by positivity
  have Emin : ∀ c, sqErr (cols.map triple) (triple m) ≤ sqErr (cols.map triple) c := by
    intro c
    rw [← mean_triple]
    exact c32_mean_least (by simpa using hcne) c
  -- the mean of the bytes
  let mb : RGB := ⟨(mean (qs.map (byteCol f))).1 / 255, (mean (qs.map (byteCol f))).2.1 / 255, (mean (qs.map (byteCol f))).2.2 / 255⟩
  have mbe : (255 * mb.r, 255 * mb.g, 255 * mb.b) = mean (qs.map (byteCol f)) := by
    refine Prod.ext ?_ (Prod.ext ?_ ?_) <;> simp only [mb] <;> ring
  have mbu : Unit01 mb := by
    have e : mb = meanRGB (qs.map fun q => (ofBytes id w h f).px q.1.toNat q.2.toNat) := by
      have k := avg_mean (w := w) (h := h) f (qs := qs) (c := meanRGB (qs.map fun q => (ofBytes id w h f).px q.1.toNat q.2.toNat)) (meanRGB_chan _)
      rw [← mbe] at k
      simp only [Prod.mk.injEq] at k
      obtain ⟨k1, k2, k3⟩ := k
      generalize meanRGB (qs.map fun q => (ofBytes id w h f).px q.1.toNat q.2.toNat) = mm at *
      cases mm
      simp only [mb, RGB.mk.injEq] at *
      exact ⟨by linarith, by linarith, by linarith⟩
    rw [e]
    refine meanRGB_unit (by simpa using hne) ?_
    intro c hc
    obtain ⟨q, -, rfl⟩ := List.mem_map.mp hc
    exact ofBytes_unit (id_rnd 53) f _ _
  have km := abs_le.mp (err_close (w := w) (h := h) R f mu qs)
  have kb := abs_le.mp (err_close (w := w) (h := h) R f mbu qs)
  rw [← hI, Ecols] at km kb
  rw [mbe] at kb
  have hum := hu (255 * m.r, 255 * m.g, 255 * m.b)
  -- the rendered colour
  have dc : dist2 (triple m) (triple c) ≤ 3 / 2 ^ 44 ∧ ∀ ch ∈ channels, 0 ≤ ch c ∧ ch c ≤ 1 + 1 / 2 ^ 22 := by
    have near : ∀ ch ∈ channels, |ch c - ch m| ≤ 1 / 2 ^ 22 ∧ 0 ≤ ch c ∧ ch c ≤ 1 + 1 / 2 ^ 22 := by
      intro ch hch
      have := h2 ch hch
      rw [← meanRGB_chan cols ch hch, ← hm] at this
      have u := mu ch hch
      have a := abs_le.mp this
      have lt : ch m / 2 ^ 22 ≤ 1 / 2 ^ 22 := div_le_div_of_nonneg_right u.2 (by norm_num)
      refine ⟨this.trans lt, ?_, by linarith⟩
      have : ch m / 2 ^ 22 ≤ ch m := div_le_self u.1 (by norm_num)
      linarith
    refine ⟨?_, fun ch hch => (near ch hch).2⟩
    have sqb : ∀ ch ∈ channels, (ch m - ch c) ^ 2 ≤ 1 / 2 ^ 44 := by
      intro ch hch
      have := (near ch hch).1
      rw [abs_sub_comm] at this
      have := pow_le_pow_left₀ (abs_nonneg _) this 2
      rw [sq_abs] at this
      norm_num at this ⊢
      exact this
    have a1 := sqb RGB.r (by simp [channels])
    have a2 := sqb RGB.g (by simp [channels])
    have a3 := sqb RGB.b (by simp [channels])
    unfold dist2 triple
    simp only
    linarith
  have Ec : sqErr (cols.map triple) (triple c) = sqErr (cols.map triple) (triple m) + qs.length * dist2 (triple m) (triple c) := by
    have := sqErr_mean (ps := cols.map triple) (by simpa using hcne) (triple c)
    rw [mean_triple, ← hm, List.length_map] at this
    rw [this, hcols, List.length_map]
  have pc := mul_le_mul_of_nonneg_left dc.1 n0
  have pc0 : 0 ≤ (qs.length : ℚ) * dist2 (triple m) (triple c) := mul_nonneg n0 (by unfold dist2; positivity)
  have e1 := Emin (triple mb)
  simp only [Ecols]
  have bound : sqErr (cols.map triple) (triple c) ≤ 4 * qs.length := by
    unfold sqErr
    have : ∀ x ∈ (cols.map triple).map (fun p => dist2 p (triple c)), x ≤ 4 := by
      intro x hx
      obtain ⟨p, hp, rfl⟩ := List.mem_map.mp hx
      obtain ⟨u, hu', rfl⟩ := List.mem_map.mp hp
      have uu := cu u hu'
      have one : ∀ ch ∈ channels, (ch u - ch c) ^ 2 ≤ (1 + 1 / 2 ^ 22) ^ 2 := by
        intro ch hch
        have := uu ch hch
        have := dc.2 ch hch
        refine sq_le_sq' (by linarith) ?_
        have : (0 : ℚ) ≤ 1 / 2 ^ 22 := by positivity
        linarith
      have a1 := one RGB.r (by simp [channels])
      have a2 := one RGB.g (by simp [channels])
      have a3 := one RGB.b (by simp [channels])
      unfold dist2 triple
      simp only
      norm_num at a1 a2 a3 ⊢
      linarith
    have := List.sum_le_card_nsmul _ 4 this
    simp only [List.length_map, hcols, nsmul_eq_mul] at this
    linarith
  refine ⟨?_, ?_, sqErr_nonneg _ _, bound, ?_⟩
  · norm_num at km kb pc hum ⊢
    linarith
  · norm_num at km kb pc hum ⊢
    linarith
  · intro c'
    have := Emin (triple c')
    norm_num at pc ⊢
    linarith

/-- What the evaluator and the renderer do with one triangle. -/
theorem tri_value (z : ℚ) (f : Nat → Nat → Fin 256 × Fin 256 × Fin 256) {bs : Nat} (hb : 1 ≤ bs) (hb' : bs ≤ 16)
    (hw1 : 1 ≤ w) (hh1 : 1 ≤ h) (hw : w ≤ 32767) (hh : h ≤ 32767) {t : Tri} (ht : InImage w h t) (hn : NonDegenerate t)
    (hlen : (DDATriangle (rne 53) z t).length ≤ 6876000) {I : Img} (hI : I = ofBytes (rne 53) w h f)
    {E : RGB → ℚ} (hE : E = fun c => ((DDATriangle (rne 53) z t).map fun q => rgbDist (I.px q.1.toNat q.2.toNat) c).sum) {n : ℚ} (hnn : n = (DDATriangle (rne 53) z t).length) :
    ∃ c, renderTri (rne 53) z I t = some ((vlist t).map (fun p => ⟨rne 53 (p.x / I.w), rne 53 (p.y / I.h)⟩), some c) ∧
      sumsDiff (rne 53) (sumsOf (triPixels (rne 53) z I t)) ≤ 65025 * E c + n / 2 ^ 30 + 1 / 1000 ∧
      65025 * E c - n * (1 + 1 / 2 ^ 20) - 1 / 1000 ≤ sumsDiff (rne 53) (sumsOf (triPixels (rne 53) z I t)) ∧
      0 ≤ E c ∧ E c ≤ 4 * n ∧ ∀ c', E c ≤ E c' + n / 2 ^ 40 := by
  have R : Rnd 53 (rne 53) := rne_rnd (by norm_num)
  obtain ⟨c, h1, h2⟩ := c53_rounded_partial R z (I := ofBytes (rne 53) w h f) hw1 hh1 (show w ≤ 32768 by omega) (show h ≤ 32768 by omega) (t := t) ht
    (fun x y _ _ ch hch => (ofBytes_unit R f x y ch hch).1)
  rw [← hI] at h1 h2
  refine ⟨c, h1, ?_⟩
  obtain ⟨v, hv, hu, hl⟩ := c32_ieee_partial z (show w ≤ 32768 by omega) (show h ≤ 32768 by omega) f ht hn hb hb' hlen
  unfold triValue at hv
  rw [triSums_of R z (ofBytes_ok R w h f) (by show w ≤ 32768; omega) (by show h ≤ 32768; omega) hb hb' ht hn, Option.map_some, Option.some_inj] at hv
  rw [← hI] at hv
  rw [hv]
  clear hv h1
  by_cases hne : DDATriangle (rne 53) z t = []
  · subst hE hnn
    rw [hne] at hu hl ⊢
    have := hu (0, 0, 0)
    simp [sqErr] at this hl ⊢
    exact ⟨this, by linarith⟩
  have h2' : ∀ ch ∈ channels, |ch c - avgOf (((DDATriangle (rne 53) z t).map fun q => I.px q.1.toNat q.2.toNat).map ch)| ≤
      avgOf (((DDATriangle (rne 53) z t).map fun q => I.px q.1.toNat q.2.toNat).map ch) / 2 ^ 22 := by
    intro ch hch
    have := h2 ch hch
    unfold palette at this
    rwa [if_neg hne] at this
  rw [hnn]
  exact value_core f hne hI hu hl h2' hE

/-- A dyadic lower bound of an accumulated sum. -/
theorem foldl_ge {fl : ℚ → ℚ} (R : Rnd 53 fl) : ∀ (l : List (ℚ × ℤ)) (a : ℚ) (k : ℤ), (k : ℚ) / 64 ≤ a → (∀ x ∈ l, (x.2 : ℚ) / 64 ≤ x.1) →
    |k| + (l.map fun x => |x.2|).sum ≤ 2 ^ 50 → ((k + (l.map Prod.snd).sum : ℤ) : ℚ) / 64 ≤ (l.map Prod.fst).foldl (fun s x => fl (s + x)) a := by
  intro l
  induction l with
  | nil => intro a k ha _ _; simpa using ha
  | cons x l ih =>
    intro a k ha hl hk
    simp only [List.map_cons, List.sum_cons, List.foldl_cons] at hk ⊢
    have hx := hl x (by simp)
    have tri := abs_add_le k x.2
    have rest : 0 ≤ (l.map fun x => |x.2|).sum := List.sum_nonneg fun y hy => by
      obtain ⟨u, -, rfl⟩ := List.mem_map.mp hy
      exact abs_nonneg _
    have step : ((k + x.2 : ℤ) : ℚ) / 64 ≤ fl (a + x.1) := by
      have := R.mono (((k + x.2 : ℤ) : ℚ) / 64) (a + x.1) (by push_cast; linarith)
      rwa [R.fix] at this
      exact ⟨k + x.2, -6, le_trans (by omega) (show (2 : ℤ) ^ 50 ≤ 2 ^ 53 by norm_num), by push_cast; norm_num; ring⟩
    have := ih (fl (a + x.1)) (k + x.2) step (fun y hy => hl y (by simp [hy])) (by omega)
    rwa [add_assoc] at this

/-- The fitness as a function of the total difference: rounding is negligible. -/
theorem finish_close {fl : ℚ → ℚ} (R : Rnd 53 fl) {I : Img} (hw1 : 1 ≤ I.w) (hh1 : 1 ≤ I.h) (hwh : I.w * I.h ≤ 6800000)
    {D : ℚ} {a : ℕ} (hA : (a : ℚ) / 2 ≤ I.w * I.h) (hD : |D| ≤ 2 * (195075 * (I.w * I.h))) :
    |finish fl I D (a / 2) - ((a : ℚ) / 2 / (I.w * I.h) - D / (195075 * (I.w * I.h)))| ≤ 1 / 2 ^ 40 := by
  have hwhI : ((I.w * I.h : ℕ) : ℤ) ≤ 6800000 := by exact_mod_cast hwh
  have h3 : (1 : ℚ) ≤ I.w := by exact_mod_cast hw1
  have h4 : (1 : ℚ) ≤ I.h := by exact_mod_cast hh1
  have hwh0 : (0 : ℚ) < I.w * I.h := by positivity
  have haI : (a : ℤ) ≤ 2 * ((I.w * I.h : ℕ) : ℤ) := by
    have : (a : ℚ) ≤ ((2 * (I.w * I.h) : ℕ) : ℚ) := by push_cast; linarith
    have : a ≤ 2 * (I.w * I.h) := by exact_mod_cast this
    exact_mod_cast this
  unfold finish
  simp only
  have e1 : fl ((I.w * I.h : Nat) : ℚ) = I.w * I.h := by
    have := R.int (n := ((I.w * I.h : ℕ) : ℤ)) (by rw [abs_of_nonneg (by positivity)]; exact hwhI.trans (by norm_num))
    push_cast at this ⊢
    exact this
  have e2 : fl ((maxPixelDifference * I.w * I.h : Int) : ℚ) = 195075 * (I.w * I.h) := by
    have : maxPixelDifference * I.w * I.h = 195075 * ((I.w * I.h : ℕ) : ℤ) := by unfold maxPixelDifference; push_cast; ring
    rw [this, R.int (by rw [abs_of_nonneg (by positivity)]; generalize ((I.w * I.h : ℕ) : ℤ) = k at *; norm_num at hwhI ⊢; linarith)]
    push_cast
    ring
  have e3 : fl ((I.w : ℚ) * I.h - a / 2) = I.w * I.h - a / 2 := by
    refine R.fix _ ⟨2 * ((I.w * I.h : ℕ) : ℤ) - a, -1, ?_, by push_cast; norm_num; ring⟩
    rw [abs_of_nonneg (by omega)]
    norm_num
    omega
  have e4 : fl ((maxPixelDifference : ℚ) * (I.w * I.h - a / 2)) = 195075 * (I.w * I.h - a / 2) := by
    have : ((maxPixelDifference : Int) : ℚ) = 195075 := by unfold maxPixelDifference; norm_num
    rw [this]
    refine R.fix _ ⟨195075 * (2 * ((I.w * I.h : ℕ) : ℤ) - a), -1, ?_, by push_cast; norm_num; ring⟩
    rw [abs_of_nonneg (by omega)]
    norm_num
    omega
  rw [e1, e2, e3, e4]
  have a0 : (0 : ℚ) ≤ a / 2 := by positivity
  generalize (a : ℚ) / 2 = A at *
  generalize (I.w : ℚ) * I.h = P at *
  have hP : (0 : ℚ) < 195075 * P := by linarith
  obtain ⟨d1, d2⟩ := abs_le.mp hD
  have hX : |D + 195075 * (P - A)| ≤ 3 * (195075 * P) := by rw [abs_le]; constructor <;> linarith
  have x1 := R.err (D + 195075 * (P - A))
  generalize hXd : D + 195075 * (P - A) = X at *
  have q0 : |X / (195075 * P)| ≤ 3 := by rw [abs_div, abs_of_pos hP, div_le_iff₀ hP]; exact hX
  have q1 : |fl X / (195075 * P) - X / (195075 * P)| ≤ 3 / 2 ^ 53 := by
    rw [← sub_div, abs_div, abs_of_pos hP, div_le_iff₀ hP]
    refine x1.trans ?_
    rw [div_mul_eq_mul_div]
    exact div_le_div_of_nonneg_right hX (by positivity)
  have q2 := R.err (fl X / (195075 * P))
  generalize fl X / (195075 * P) = y at *
  have eq : A / P - D / (195075 * P) = 1 - X / (195075 * P) := by
    rw [← hXd]
    field_simp
    ring
  rw [eq]
  generalize X / (195075 * P) = x at *
  have y1 : |y| ≤ 4 := by
    have := abs_le.mp q0
    have := abs_le.mp q1
    norm_num at *
    rw [abs_le]; constructor <;> linarith
  have y2 : |y| / 2 ^ 53 ≤ 4 / 2 ^ 53 := div_le_div_of_nonneg_right y1 (by positivity)
  have q3 := R.err (1 - fl y)
  generalize fl y = u at *
  have b1 := abs_le.mp (q2.trans y2)
  have b2 := abs_le.mp q1
  have b3 := abs_le.mp q0
  have u1 : |1 - u| ≤ 6 := by
    norm_num at b1 b2
    rw [abs_le]; constructor <;> linarith
  have u2 : |1 - u| / 2 ^ 53 ≤ 6 / 2 ^ 53 := div_le_div_of_nonneg_right u1 (by positivity)
  have b4 := abs_le.mp (q3.trans u2)
  norm_num at b1 b2 b4 ⊢
  rw [abs_le]
  constructor <;> linarith

theorem sum_add3 {α : Type} (l : List α) (F G : α → ℚ) (k : ℚ) : (l.map fun a => F a + G a + k).sum = (l.map F).sum + (l.map G).sum + l.length * k := by
  induction l with
  | nil => simp
  | cons a l ih => simp only [List.map_cons, List.sum_cons, List.length_cons, ih]; push_cast; ring

theorem cast_sum_nat {α : Type} (l : List α) (F : α → ℕ) : (((l.map F).sum : ℕ) : ℚ) = (l.map fun a => (F a : ℚ)).sum := by
  induction l with
  | nil => simp
  | cons a l ih => simp only [List.map_cons, List.sum_cons, ← ih]; push_cast; ring

theorem cast_sum_int {α : Type} (l : List α) (F : α → ℤ) : (((l.map F).sum : ℤ) : ℚ) = (l.map fun a => (F a : ℚ)).sum := by
  induction l with
  | nil => simp
  | cons a l ih => simp only [List.map_cons, List.sum_cons, ← ih]; push_cast; ring

/-- The accumulated differences of shapes with values `V`, squared errors `E` and `n` pixels: rounding is negligible. -/
theorem accum_close {α : Type} {fl : ℚ → ℚ} (R : Rnd 53 fl) {T : List α} {V E : α → ℚ} {n : α → ℕ} {P : ℚ} (hP : P ≤ 6800000)
    (key : ∀ t ∈ T, V t ≤ 65025 * E t + n t / 2 ^ 30 + 1 / 1000 ∧ 65025 * E t - n t * (1 + 1 / 2 ^ 20) - 1 / 1000 ≤ V t ∧ 0 ≤ E t ∧ E t ≤ 4 * n t)
    (N1 : (T.map fun t => (n t : ℚ)).sum ≤ P) (L1 : (T.length : ℚ) ≤ 2 * P) :
    65025 * (T.map E).sum - P * (11 / 10) ≤ (T.map V).foldl (fun s x => fl (s + x)) 0 ∧
      (T.map V).foldl (fun s x => fl (s + x)) 0 ≤ 65025 * (T.map E).sum + P * (11 / 10) := by
  set S := (T.map E).sum with hS
  have N0 : 0 ≤ (T.map fun t => (n t : ℚ)).sum := List.sum_nonneg fun x hx => by
    obtain ⟨t, -, rfl⟩ := List.mem_map.mp hx
    positivity
  have S0 : 0 ≤ S := List.sum_nonneg fun x hx => by
    obtain ⟨t, ht, rfl⟩ := List.mem_map.mp hx
    exact (key t ht).2.2.1
  have S1 : S ≤ 4 * P := by
    have : S ≤ (T.map fun t => 4 * (n t : ℚ)).sum := List.sum_le_sum fun t ht => (key t ht).2.2.2
    rw [List.sum_map_mul_left] at this
    linarith
  -- upper bound of the accumulated difference
  let up : α → ℕ := fun t => ⌈64 * (65025 * E t + n t / 2 ^ 30 + 1 / 1000)⌉₊
  have upb : ∀ t ∈ T, (up t : ℚ) ≤ 64 * 65025 * E t + 64 / 2 ^ 30 * n t + (1 + 64 / 1000) := by
    intro t ht
    have e0 := (key t ht).2.2.1
    have := Nat.ceil_lt_add_one (a := 64 * (65025 * E t + n t / 2 ^ 30 + 1 / 1000)) (by positivity)
    simp only [up]
    linarith
  have upS : (((T.map up).sum : ℕ) : ℚ) ≤ 64 * 65025 * S + 64 / 2 ^ 30 * (T.map fun t => (n t : ℚ)).sum + T.length * (1 + 64 / 1000) := by
    rw [cast_sum_nat]
    refine (List.sum_le_sum upb).trans (le_of_eq ?_)
    rw [sum_add3, List.sum_map_mul_left, List.sum_map_mul_left]
  have hup : (T.map V).foldl (fun s x => fl (s + x)) 0 ≤ (((T.map up).sum : ℕ) : ℚ) / 64 := by
    have := foldl_upper R (T.map fun t => (V t, up t)) 0 0 (by simp) ?_ ?_
    · simp only [List.map_map, Function.comp_def, Nat.zero_add] at this
      exact this
    · intro x hx
      obtain ⟨t, ht, rfl⟩ := List.mem_map.mp hx
      have := (key t ht).1
      have := Nat.le_ceil (64 * (65025 * E t + n t / 2 ^ 30 + 1 / 1000))
      simp only [up]
      linarith
    · simp only [List.map_map, Function.comp_def, Nat.zero_add]
      have : (((T.map up).sum : ℕ) : ℚ) ≤ ((2 ^ 50 : ℕ) : ℚ) := by
        refine upS.trans ?_
        norm_num
        linarith
      exact_mod_cast this
  -- lower bound
  let lo : α → ℤ := fun t => ⌊64 * (65025 * E t - n t * (1 + 1 / 2 ^ 20) - 1 / 1000)⌋
  have lob : ∀ t ∈ T, 64 * 65025 * E t + -(64 * (1 + 1 / 2 ^ 20)) * n t + -(1 + 64 / 1000) ≤ lo t := by
    intro t ht
    have := Int.sub_one_lt_floor (64 * (65025 * E t - n t * (1 + 1 / 2 ^ 20) - 1 / 1000))
    simp only [lo]
    linarith
  have loS : 64 * 65025 * S + -(64 * (1 + 1 / 2 ^ 20)) * (T.map fun t => (n t : ℚ)).sum + T.length * (-(1 + 64 / 1000)) ≤ (((T.map lo).sum : ℤ) : ℚ) := by
    rw [cast_sum_int]
    refine le_trans (le_of_eq ?_) (List.sum_le_sum lob)
    rw [sum_add3, List.sum_map_mul_left, List.sum_map_mul_left]
  have hlo : (((T.map lo).sum : ℤ) : ℚ) / 64 ≤ (T.map V).foldl (fun s x => fl (s + x)) 0 := by
    have := foldl_ge R (T.map fun t => (V t, lo t)) 0 0 (by simp) ?_ ?_
    · simp only [List.map_map, Function.comp_def, zero_add] at this
      exact this
    · intro x hx
      obtain ⟨t, ht, rfl⟩ := List.mem_map.mp hx
      have := (key t ht).2.1
      have := Int.floor_le (64 * (65025 * E t - n t * (1 + 1 / 2 ^ 20) - 1 / 1000))
      simp only [lo]
      linarith
    · simp only [List.map_map, Function.comp_def, abs_zero, zero_add]
      have b : ∀ t ∈ T, ((|lo t| : ℤ) : ℚ) ≤ 64 * 65025 * E t + 65 * n t + 2 := by
        intro t ht
        have e0 := (key t ht).2.2.1
        have l1 := lob t ht
        have l2 := Int.floor_le (64 * (65025 * E t - n t * (1 + 1 / 2 ^ 20) - 1 / 1000))
        have n0 : (0 : ℚ) ≤ n t := by positivity
        change ((lo t : ℤ) : ℚ) ≤ _ at l2
        norm_num at l1 l2
        push_cast
        rw [abs_le]
        constructor <;> linarith
      have : (((T.map fun t => |lo t|).sum : ℤ) : ℚ) ≤ ((2 ^ 50 : ℤ) : ℚ) := by
        rw [cast_sum_int]
        refine (List.sum_le_sum b).trans ?_
        rw [sum_add3, List.sum_map_mul_left, List.sum_map_mul_left, ← hS]
        norm_num
        linarith
      exact_mod_cast this
  generalize (T.map V).foldl (fun s x => fl (s + x)) 0 = D at *
  generalize (((T.map lo).sum : ℤ) : ℚ) = lS at *
  generalize (((T.map up).sum : ℕ) : ℚ) = uS at *
  generalize (T.map fun t => (n t : ℚ)).sum = N at *
  constructor
  · norm_num at loS
    linarith
  · norm_num at upS
    linarith

/-- **C87** with IEEE arithmetic: for an 8-bit image of at most 6800000 pixels the fitness differs by at most 1/100000 from the share of the image covered
by triangles minus the squared error, per channel and pixel, of the picture that `TrianglesOnImage` describes; and no other colours of the triangles
would raise this by more than 1/100000 above the fitness. -/
theorem c87_ieee (z : ℚ) (f : Nat → Nat → Fin 256 × Fin 256 × Fin 256) {bs : Nat} (hb : 1 ≤ bs) (hb' : bs ≤ 16)
    (hw1 : 1 ≤ w) (hh1 : 1 ≤ h) (hw : w ≤ 32767) (hh : h ≤ 32767) (hwh : w * h ≤ 6800000) (M : Mesh w h T) :
    ∃ out cs v, trianglesOnImage (rne 53) z (ofBytes (rne 53) w h f) T = some out ∧ out.map Prod.snd = cs.map some ∧
      evalTris (rne 53) z (ofBytes (rne 53) w h f) bs T = some v ∧
      |v - ((T.map area).sum / (w * h) -
        pictureErr (ofBytes (rne 53) w h f) (fun t q => q ∈ DDATriangle (rne 53) z t) (T.zip cs) / (3 * (w * h)))| ≤ 1 / 100000 ∧
      ∀ cs' : List RGB, cs'.length = T.length → (T.map area).sum / (w * h) -
        pictureErr (ofBytes (rne 53) w h f) (fun t q => q ∈ DDATriangle (rne 53) z t) (T.zip cs') / (3 * (w * h)) ≤ v + 1 / 100000 := by
  have R : Rnd 53 (rne 53) := rne_rnd (by norm_num)
  set I := ofBytes (rne 53) w h f with hI
  have hlen := length_visits R z hw hh M
  have hcnt := mesh_count M
  have hw0 : (0 : ℚ) < w := by exact_mod_cast hw1
  have hh0 : (0 : ℚ) < h := by exact_mod_cast hh1
  have hP : (0 : ℚ) < w * h := by positivity
  let E : Tri → RGB → ℚ := fun t c => ((DDATriangle (rne 53) z t).map fun q => rgbDist (I.px q.1.toNat q.2.toNat) c).sum
  let n : Tri → ℕ := fun t => (DDATriangle (rne 53) z t).length
  let V : Tri → ℚ := fun t => sumsDiff (rne 53) (sumsOf (triPixels (rne 53) z I t))
  let c : Tri → RGB := paint (rne 53) z I
  have key : ∀ t ∈ T, renderTri (rne 53) z I t = some ((vlist t).map (fun p => ⟨rne 53 (p.x / I.w), rne 53 (p.y / I.h)⟩), some (c t)) ∧
      V t ≤ 65025 * E t (c t) + n t / 2 ^ 30 + 1 / 1000 ∧ 65025 * E t (c t) - n t * (1 + 1 / 2 ^ 20) - 1 / 1000 ≤ V t ∧
      0 ≤ E t (c t) ∧ E t (c t) ≤ 4 * n t ∧ ∀ c', E t (c t) ≤ E t c' + n t / 2 ^ 40 := by
    intro t ht
    have one := List.single_le_sum (l := T.map fun t => (DDATriangle (rne 53) z t).length) (fun _ _ => Nat.zero_le _) _ (List.mem_map_of_mem ht)
    obtain ⟨c0, h1, h2⟩ := tri_value z f hb hb' hw1 hh1 hw hh (M.img t ht) (M.nondeg t ht) (by omega) hI (E := E t) rfl (n := n t) rfl
    have : c t = c0 := by simp only [c]; unfold paint; rw [h1]; rfl
    rw [this]
    exact ⟨h1, h2⟩
  have hpic : ∀ cs : List RGB, cs.length = T.length → pictureErr I (fun t q => q ∈ DDATriangle (rne 53) z t) (T.zip cs) = ((T.zip cs).map fun e => E e.1 e.2).sum :=
    fun cs hl => picture_mesh z R hw hh M rfl rfl (fun _ _ _ _ => Iff.rfl) hl
  have hpc : pictureErr I (fun t q => q ∈ DDATriangle (rne 53) z t) (T.zip (T.map c)) = (T.map fun t => E t (c t)).sum := by
    rw [hpic _ (by simp), zip_self, List.map_map]; rfl
  set S := (T.map fun t => E t (c t)).sum with hS
  have N1 : (T.map fun t => (n t : ℚ)).sum ≤ w * h := by
    rw [← cast_sum_nat]
    exact_mod_cast hlen
  have N0 : 0 ≤ (T.map fun t => (n t : ℚ)).sum := List.sum_nonneg fun x hx => by
    obtain ⟨t, -, rfl⟩ := List.mem_map.mp hx
    positivity
  have S0 : 0 ≤ S := List.sum_nonneg fun x hx => by
    obtain ⟨t, ht, rfl⟩ := List.mem_map.mp hx
    exact (key t ht).2.2.2.1
  have S1 : S ≤ 4 * (w * h) := by
    have : S ≤ (T.map fun t => 4 * (n t : ℚ)).sum := List.sum_le_sum fun t ht => (key t ht).2.2.2.2.1
    rw [List.sum_map_mul_left] at this
    linarith
  have hwhq : (w : ℚ) * h ≤ 6800000 := by exact_mod_cast hwh
  have L1 : (T.length : ℚ) ≤ 2 * (w * h) := by exact_mod_cast hcnt
  obtain ⟨Dl, Du⟩ := accum_close R (V := V) (E := fun t => E t (c t)) (n := n) hwhq
    (fun t ht => ⟨(key t ht).2.1, (key t ht).2.2.1, (key t ht).2.2.2.1, (key t ht).2.2.2.2.1⟩) N1 L1
  rw [← hS] at Dl Du
  obtain ⟨a, ha⟩ := area_sum_dy T
  have hA := M.area
  have hv := evalTris_eq R z (ofBytes_ok R w h f) hb hb' hw hh M
  change evalTris (rne 53) z I bs T = some (finish (rne 53) I ((T.map V).foldl (fun s x => rne 53 (s + x)) 0) (T.map area).sum) at hv
  rw [ha] at hv hA
  generalize (T.map V).foldl (fun s x => rne 53 (s + x)) 0 = D at *
  have fin := finish_close R (I := I) hw1 hh1 hwh (a := a) hA (D := D) (by
    change |D| ≤ 2 * (195075 * ((w : ℚ) * h))
    rw [abs_le]; constructor <;> linarith)
  change |finish (rne 53) I D (a / 2) - ((a : ℚ) / 2 / (w * h) - D / (195075 * (w * h)))| ≤ 1 / 2 ^ 40 at fin
  have dif : |D / (195075 * (w * h)) - S / (3 * (w * h))| ≤ 11 / 10 / 195075 := by
    have : D / (195075 * (w * h)) - S / (3 * (w * h)) = (D - 65025 * S) / (195075 * (w * h)) := by field_simp; ring
    rw [this, abs_div, abs_of_pos (show (0 : ℚ) < 195075 * (w * h) by positivity), div_le_iff₀ (by positivity)]
    rw [abs_le]
    constructor <;> linarith
  have tot : |finish (rne 53) I D (a / 2) - ((a : ℚ) / 2 / (w * h) - S / (3 * (w * h)))| ≤ 9 / 1000000 := by
    have b1 := abs_le.mp fin
    have b2 := abs_le.mp dif
    norm_num at b1 b2
    rw [abs_le]
    constructor <;> linarith
  refine ⟨_, T.map c, _, mapM_spec fun t ht => (key t ht).1, by rw [List.map_map, List.map_map]; rfl, hv, ?_, ?_⟩
  · rw [hpc, ha]
    exact tot.trans (by norm_num)
  · intro cs' hl
    have h1 : (T.map fun t => E t (c t)).sum ≤ ((T.zip cs').map fun e => E e.1 e.2 + n e.1 / 2 ^ 40).sum :=
      zip_le (E := fun t c' => E t c' + (n t : ℚ) / 2 ^ 40) hl fun t ht c' => (key t ht).2.2.2.2.2 c'
    have h2 : ((T.zip cs').map fun e => E e.1 e.2 + (n e.1 : ℚ) / 2 ^ 40).sum = ((T.zip cs').map fun e => E e.1 e.2).sum + (((T.zip cs').map fun e => (n e.1 : ℚ)).sum) / 2 ^ 40 := by
      generalize T.zip cs' = Z
      clear * -
      induction Z with
      | nil => simp
      | cons e Z ih => simp only [List.map_cons, List.sum_cons, ih]; ring
    have h3 : ((T.zip cs').map fun e => (n e.1 : ℚ)) = T.map fun t => (n t : ℚ) := by
      have : (T.zip cs').map Prod.fst = T := List.map_fst_zip (by omega)
      conv_rhs => rw [← this]
      rw [List.map_map]
      rfl
    have N2 : (T.map fun t => (n t : ℚ)).sum ≤ w * h := by
      rw [← cast_sum_nat]
      exact_mod_cast hlen
    rw [h2, h3, ← hpic cs' hl] at h1
    rw [ha]
    generalize pictureErr I (fun t q => q ∈ DDATriangle (rne 53) z t) (T.zip cs') = S' at *
    generalize (T.map fun t => (n t : ℚ)).sum = N' at *
    have h4 : S / (3 * (w * h)) ≤ S' / (3 * (w * h)) + 1 / 1000000 := by
      rw [div_le_iff₀ (by positivity), add_mul, div_mul_cancel₀ _ (by positivity)]
      norm_num at h1
      linarith
    have b := abs_le.mp tot
    norm_num at b h4 ⊢
    linarith

end

section
variable {g : Geo} {fs : ℚ → ℚ} {w h : Nat} {ops : List Op} {s : Multiset Pt} {m : Nat} {d : D}

/-- **C87** for triangulations (partial: under `Arith`, images of at most 6800000 pixels), IEEE arithmetic. -/
theorem c87_triangulation_partial (A : Arith g fs w h ops) (H : Hist w h ops s m) (e : exec g fs w h ops = some d) (hwh : w * h ≤ 6800000)
    (z : ℚ) (f : Nat → Nat → Fin 256 × Fin 256 × Fin 256) {bs : Nat} (hb : 1 ≤ bs) (hb' : bs ≤ 16) :
    ∃ out cs v, trianglesOnImage (rne 53) z (ofBytes (rne 53) w h f) (iterTriangles d) = some out ∧ out.map Prod.snd = cs.map some ∧
      evalTris (rne 53) z (ofBytes (rne 53) w h f) bs (iterTriangles d) = some v ∧
      |v - (((iterTriangles d).map area).sum / (w * h) -
        pictureErr (ofBytes (rne 53) w h f) (fun t q => q ∈ DDATriangle (rne 53) z t) ((iterTriangles d).zip cs) / (3 * (w * h)))| ≤ 1 / 100000 ∧
      ∀ cs' : List RGB, cs'.length = (iterTriangles d).length → ((iterTriangles d).map area).sum / (w * h) -
        pictureErr (ofBytes (rne 53) w h f) (fun t q => q ∈ DDATriangle (rne 53) z t) ((iterTriangles d).zip cs') / (3 * (w * h)) ≤ v + 1 / 100000 := by
  have k := A.size
  exact c87_ieee z f hb hb' k.w1 k.h1 (by have := k.w2; omega) (by have := k.h2; omega) hwh (mesh_of A H e)

end

example : ∃ d v, exec (gridGeo ieee 40 30) (rne 53) 40 30 demoOps = some d ∧ iterTriangles d ≠ [] ∧
    evalTris (rne 53) 0 (checker (rne 53) 40 30) 5 (iterTriangles d) = some v ∧
    ∃ cs, |v - (((iterTriangles d).map area).sum / ((40 : ℕ) * (30 : ℕ)) -
      pictureErr (checker (rne 53) 40 30) (fun t q => q ∈ DDATriangle (rne 53) 0 t) ((iterTriangles d).zip cs) / (3 * ((40 : ℕ) * (30 : ℕ))))| ≤ 1 / 100000 := by
  obtain ⟨d, e⟩ := demo_exec
  obtain ⟨out, cs, v, -, -, h2, h3, -⟩ := c87_triangulation_partial demo_arith demo_hist e (by norm_num) 0
    (fun x y => if (x + y) % 2 = 0 then (0, 0, 0) else (255, 255, 255)) (bs := 5) (by norm_num) (by norm_num)
  refine ⟨d, v, e, ?_, h2, cs, h3⟩
  have : ((exec (gridGeo ieee 40 30) (rne 53) 40 30 demoOps).map fun d => (iterTriangles d).length) = some 1 := by decide +kernel
  rw [e, Option.map_some, Option.some_inj] at this
  intro h
  rw [h] at this
  exact absurd this (by simp)

example : ∃ d, exec (gridGeo ieee 40 30) (rne 53) 40 30 demoOps = some d ∧
    ∃ cs v, evalTris id 0 (checker id 40 30) 5 (iterTriangles d) = some v ∧ cs.length = (iterTriangles d).length ∧
      v = ((iterTriangles d).map area).sum / ((40 : ℕ) * (30 : ℕ)) - pictureErr (checker id 40 30) OwnsPixel ((iterTriangles d).zip cs) / (3 * ((40 : ℕ) * (30 : ℕ))) := by
  obtain ⟨d, e⟩ := demo_exec
  obtain ⟨out, cs, v, h0, h1, h2, h3, -⟩ := c87_exact (w := 40) (h := 30) 0 (fun x y => if (x + y) % 2 = 0 then (0, 0, 0) else (255, 255, 255)) (bs := 5)
    (by norm_num) (by norm_num) (by norm_num) (by norm_num) (by norm_num) (by norm_num) (by norm_num) (mesh_of demo_arith demo_hist e)
  refine ⟨d, e, cs, v, h2, ?_, h3⟩
  have a := congrArg List.length h1
  rw [List.length_map, List.length_map] at a
  obtain ⟨o, ho, hl, -⟩ := c53_triangles (id_rnd 53) 0 (I := ofBytes id 40 30 fun x y => if (x + y) % 2 = 0 then (0, 0, 0) else (255, 255, 255))
    (by show 1 ≤ 40; norm_num) (by show 1 ≤ 30; norm_num) (by show 40 ≤ 32768; norm_num) (by show 30 ≤ 32768; norm_num)
    (mesh_of demo_arith demo_hist e).img
  rw [h0] at ho
  cases ho
  omega

/-- Fitness 1 occurs, in exact arithmetic: an image of one grey value triangulated by its corners; all painted pixels are right. -/
example : ∃ d, exec (gridGeo ieee 40 30) (rne 53) 40 30 (cornerOps 40 30) = some d ∧ evalTris id 0 (grey id 7 40 30) 5 (iterTriangles d) = some 1 ∧
    ∃ cs, ∀ x y : Nat, x < 40 → y < 30 → ∀ c, shade OwnsPixel ((iterTriangles d).zip cs) (x, y) = some c → c = (grey id 7 40 30).px x y := by
  have h1 := Hist.nil (w := 40) (h := 30)
  have h2 := h1.ins ⟨0, 0⟩ ⟨by norm_num, by norm_num, by norm_num, by norm_num⟩ (by decide) (by decide)
  have h3 := h2.ins ⟨40, 0⟩ ⟨by norm_num, by norm_num, by norm_num, by norm_num⟩ (by decide) (by decide)
  have h4 := h3.ins ⟨0, 30⟩ ⟨by norm_num, by norm_num, by norm_num, by norm_num⟩ (by decide) (by decide)
  have h5 := h4.ins ⟨40, 30⟩ ⟨by norm_num, by norm_num, by norm_num, by norm_num⟩ (by decide) (by decide)
  have key : ((exec (gridGeo ieee 40 30) (rne 53) 40 30 (cornerOps 40 30)).bind fun d =>
      evalTris id 0 (grey id 7 40 30) 5 (iterTriangles d)) = some 1 := by decide +kernel
  rw [Option.bind_eq_some_iff] at key
  obtain ⟨d, e, hv⟩ := key
  obtain ⟨out, cs, v, -, -, h6, -, -, h7⟩ := c87_exact (w := 40) (h := 30) 0 (fun _ _ => (7, 7, 7)) (bs := 5)
    (by norm_num) (by norm_num) (by norm_num) (by norm_num) (by norm_num) (by norm_num) (by norm_num)
    (mesh_of (arith_ieee demo_size (by decide)) h5 e)
  have : v = 1 := by
    change evalTris id 0 (grey id 7 40 30) 5 (iterTriangles d) = some v at h6
    rw [hv] at h6
    exact (Option.some_inj.mp h6).symm
  exact ⟨d, e, hv, cs, (h7.mp this).2⟩

end Verif.Props

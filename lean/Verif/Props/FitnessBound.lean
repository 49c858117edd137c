import Verif.Props.Fitness
import Verif.Tri.Area

/-!
# Fitness is at most one (C37) and the total area (C63)
-/

namespace Verif.Props

open Verif.Tri Verif.Spec Verif.Float Verif.Raster Verif.Fit
open Verif.Incr hiding trunc

/-! ### C63: total area -/

/-- Area of a triangle. -/
def area (t : Tri) : ℚ := |area2 t.a t.b (loc t.c)| / 2

theorem area_norm {t : Tri} (h : NonDegenerate t) : area t = (norm t).or / 2 := by
  unfold area norm T3.or
  unfold NonDegenerate at h
  have e : area2 t.a t.b (loc t.c) = ori (toP t.a) (toP t.b) (toP t.c) := rfl
  rw [e] at h ⊢
  split
  · rename_i hp; rw [abs_of_pos hp]
  · rename_i hp
    rw [abs_of_neg (lt_of_le_of_ne (not_lt.mp hp) h)]
    simp only
    rw [← ori_swap]

section
variable {g : Geo} {fs : ℚ → ℚ} {w h : Nat} {ops : List Op} {s : Multiset Pt} {m : Nat} {d : D}

/-- **C63** (partial: under `Arith`): the areas of the triangles reported by `IterTriangles` add up to at most
the area of the image. -/
theorem c63_area_partial (A : Arith g fs w h ops) (H : Hist w h ops s m) (e : exec g fs w h ops = some d) :
    ((iterTriangles d).map area).sum ≤ w * h := by
  obtain ⟨I, -⟩ := A.inv H e
  have hsub : (iterTriangles d).Sublist (live d) := by
    unfold iterTriangles live
    exact List.monotone_filter_right _ (by intro t; simp only [Bool.and_eq_true]; tauto)
  have hit := I.iter_iff A.size
  have h1 : ∀ t : Tri, ∀ v, (norm t).Has v → ∃ n : ℤ, v.y = n := by
    intro t v hv
    rw [norm_has] at hv
    rcases hv with rfl | rfl | rfl
    · exact ⟨t.a.y, rfl⟩
    · exact ⟨t.b.y, rfl⟩
    · exact ⟨t.c.y, rfl⟩
  have key := area_le (s := norm (newSuperTriangle w h)) (T := (live d).map norm) (U := (iterTriangles d).map norm) (w := w) (h := h)
    (super_norm A.size).2 I.inv.ccw I.inv.chain ?_ (hsub.map _) ?_
  · have : ((iterTriangles d).map area) = (iterTriangles d).map (fun t => (norm t).or / 2) := by
      refine List.map_congr_left fun t ht => area_norm (I.nondeg (hsub.subset ht))
    rw [this]
    rw [List.map_map] at key
    have half : ∀ l : List Tri, (l.map (fun t => (norm t).or / 2)).sum = (l.map (T3.or ∘ norm)).sum / 2 := by
      intro l
      induction l with
      | nil => simp
      | cons t l ih => simp only [List.map_cons, List.sum_cons, ih, Function.comp_apply]; ring
    rw [half]
    linarith
  · intro t ht v hv
    rcases List.mem_cons.mp ht with rfl | ht
    · exact h1 _ v hv
    · obtain ⟨t', -, rfl⟩ := List.mem_map.mp ht
      exact h1 _ v hv
  · intro t ht
    obtain ⟨t', ht', rfl⟩ := List.mem_map.mp ht
    have hm := ((hit t').mp ht').2
    have : ∀ v, (norm t').Has v → ∃ p ∈ s, v = toP p := by
      intro v hv
      rw [norm_has] at hv
      rcases hv with rfl | rfl | rfl
      exacts [⟨_, hm.1, rfl⟩, ⟨_, hm.2.1, rfl⟩, ⟨_, hm.2.2, rfl⟩]
    constructor
    · intro v hv
      obtain ⟨p, hp, rfl⟩ := this v hv
      have y1 := (I.img p hp).y1
      have y2 := (I.img p hp).y2
      refine ⟨p.y.toNat, by omega, ?_⟩
      simp only [toP]
      exact_mod_cast (Int.toNat_of_nonneg y1).symm
    · intro v hv
      obtain ⟨p, hp, rfl⟩ := this v hv
      have := I.img p hp
      exact ⟨by simp only [toP]; exact_mod_cast this.x1, by simp only [toP]; exact_mod_cast this.x2⟩

example : ∃ d, exec (gridGeo ieee 40 30) (rne 53) 40 30 demoOps = some d ∧ ((iterTriangles d).map area).sum ≤ (40 : ℕ) * (30 : ℕ) :=
  let ⟨d, e⟩ := demo_exec
  ⟨d, e, c63_area_partial demo_arith demo_hist e⟩

/-- What the fitness theorems use of the triangles they are given. -/
structure Mesh (w h : Nat) (T : List Tri) : Prop where
  img : ∀ t ∈ T, InImage w h t
  nondeg : ∀ t ∈ T, NonDegenerate t
  area : (T.map Props.area).sum ≤ w * h
  once : ∀ fl : ℚ → ℚ, Rnd 53 fl → ∀ z q, visits fl z T q ≤ 1

/-- The triangles of a triangulation are such a mesh. -/
theorem mesh_of (A : Arith g fs w h ops) (H : Hist w h ops s m) (e : exec g fs w h ops = some d) : Mesh w h (iterTriangles d) := by
  obtain ⟨I, -⟩ := A.inv H e
  have hit := I.iter_iff A.size
  refine ⟨?_, ?_, c63_area_partial A H e, fun fl R z q => c30_iter_partial A H e R z q⟩
  · intro t ht v hv
    have hm := ((hit t).mp ht).2
    have : v ∈ s := by
      simp only [vlist, List.mem_cons, List.not_mem_nil, or_false] at hv
      rcases hv with rfl | rfl | rfl
      exacts [hm.1, hm.2.1, hm.2.2]
    have := I.img v this
    exact ⟨this.x1, this.x2, this.y1, this.y2⟩
  · intro t ht
    exact I.nondeg ((hit t).mp ht).1

end

example : ∃ d, exec (gridGeo ieee 40 30) (rne 53) 40 30 demoOps = some d ∧ Mesh 40 30 (iterTriangles d) :=
  let ⟨d, e⟩ := demo_exec
  ⟨d, e, mesh_of demo_arith demo_hist e⟩

/-! ### C37 -/

/-- A number with a fractional part in sixty-fourths, small enough for a double. -/
def Dy (x : ℚ) : Prop := ∃ n : ℤ, x = n / 64 ∧ |n| ≤ 2 ^ 53

theorem Dy.rep {x : ℚ} (h : Dy x) : Rep 53 x := by
  obtain ⟨n, rfl, hn⟩ := h
  exact ⟨n, -6, hn, by norm_num; ring⟩

section
variable {fl : ℚ → ℚ} {w h : Nat} {T : List Tri}

theorem areaTerm_eq (R : Rnd 53 fl) (hw : w ≤ 32767) (hh : h ≤ 32767) {t : Tri} (ht : InImage w h t) : areaTerm fl t = area t := by
  obtain ⟨a1, a2, a3, a4⟩ := ht t.a (by simp [vlist])
  obtain ⟨b1, b2, b3, b4⟩ := ht t.b (by simp [vlist])
  obtain ⟨c1, c2, c3, c4⟩ := ht t.c (by simp [vlist])
  unfold areaTerm area
  rw [w16_id (by omega) (by omega), w16_id (by omega) (by omega), w16_id (by omega) (by omega), w16_id (by omega) (by omega)]
  have prod : ∀ x y : Int, |x| ≤ 2 ^ 15 → |y| ≤ 2 ^ 15 → |x * y| ≤ 2 ^ 30 := by
    intro x y hx hy
    rw [abs_mul]
    calc |x| * |y| ≤ 2 ^ 15 * 2 ^ 15 := mul_le_mul hx hy (abs_nonneg _) (by norm_num)
      _ = 2 ^ 30 := by norm_num
  have ab : ∀ x y : Int, 0 ≤ x → x ≤ 32767 → 0 ≤ y → y ≤ 32767 → |x - y| ≤ 2 ^ 15 := by
    intro x y _ _ _ _
    rw [abs_le]; constructor <;> norm_num <;> omega
  have p1 := prod (t.b.x - t.a.x) (t.c.y - t.a.y) (ab _ _ (by omega) (by omega) (by omega) (by omega)) (ab _ _ (by omega) (by omega) (by omega) (by omega))
  have p2 := prod (t.c.x - t.a.x) (t.b.y - t.a.y) (ab _ _ (by omega) (by omega) (by omega) (by omega)) (ab _ _ (by omega) (by omega) (by omega) (by omega))
  rw [← Int.cast_mul, ← Int.cast_mul, R.int (p1.trans (by norm_num)), R.int (p2.trans (by norm_num)), ← Int.cast_sub]
  have p3 : |(t.b.x - t.a.x) * (t.c.y - t.a.y) - (t.c.x - t.a.x) * (t.b.y - t.a.y)| ≤ 2 ^ 31 :=
    (abs_sub _ _).trans (by norm_num at p1 p2 ⊢; linarith)
  rw [R.int (p3.trans (by norm_num)), R.fix]
  · rw [abs_mul]
    unfold area2 loc
    push_cast
    rw [abs_of_pos (by norm_num : (0 : ℚ) < 1 / 2), div_eq_mul_one_div |_| (2 : ℚ), mul_comm]
    congr 2
    ring
  · exact ⟨(t.b.x - t.a.x) * (t.c.y - t.a.y) - (t.c.x - t.a.x) * (t.b.y - t.a.y), -1, p3.trans (by norm_num), by norm_num; ring⟩

theorem area_dy (t : Tri) : ∃ n : ℕ, area t = n / 2 := by
  refine ⟨((t.b.x - t.a.x) * (t.c.y - t.a.y) - (t.b.y - t.a.y) * (t.c.x - t.a.x)).natAbs, ?_⟩
  unfold area area2 loc
  rw [Nat.cast_natAbs]
  push_cast
  rfl

/-- Adding areas is exact. -/
theorem foldl_area (R : Rnd 53 fl) : ∀ (l : List ℚ) (a : ℕ), (∀ x ∈ l, ∃ n : ℕ, x = n / 2) → a / 2 + l.sum ≤ 2 ^ 40 →
    l.foldl (fun s x => fl (s + x)) (a / 2) = a / 2 + l.sum := by
  intro l
  induction l with
  | nil => intro a _ _; simp
  | cons x l ih =>
    intro a hl hs
    obtain ⟨n, hn⟩ := hl x (by simp)
    have hl' : ∀ y ∈ l, ∃ n : ℕ, y = n / 2 := fun y hy => hl y (by simp [hy])
    have l0 : 0 ≤ l.sum := List.sum_nonneg fun y hy => by obtain ⟨k, rfl⟩ := hl' y hy; positivity
    simp only [List.foldl_cons, List.sum_cons] at hs ⊢
    have e : (a : ℚ) / 2 + x = ((a + n : ℕ) : ℚ) / 2 := by rw [hn]; push_cast; ring
    have f : fl ((a : ℚ) / 2 + x) = ((a + n : ℕ) : ℚ) / 2 := by
      rw [e, R.fix]
      refine ⟨(a + n : ℕ), -1, ?_, by norm_num; ring⟩
      rw [abs_of_nonneg (by positivity)]
      have : ((a + n : ℕ) : ℚ) ≤ 2 ^ 41 := by linarith
      have : (a + n : ℕ) ≤ 2 ^ 41 := by exact_mod_cast this
      have : ((a + n : ℕ) : ℤ) ≤ 2 ^ 41 := by exact_mod_cast this
      exact this.trans (by norm_num)
    rw [f, ih (a + n) hl' (by rw [← e]; linarith), ← e]
    ring

/-- The loop over the triangles: every value is computed, areas are exact. -/
theorem evalTris_eq (R : Rnd 53 fl) (z : ℚ) {I : Img} (hI : I.OK) {bs : Nat} (hb : 1 ≤ bs) (hb' : bs ≤ 16) (hw : I.w ≤ 32767) (hh : I.h ≤ 32767)
    (M : Mesh I.w I.h T) :
    evalTris fl z I bs T = some (finish fl I ((T.map fun t => sumsDiff fl (sumsOf (triPixels fl z I t))).foldl (fun s x => fl (s + x)) 0) (T.map area).sum) := by
  have key : ∀ (U : List Tri) (s : ℚ × ℚ), (∀ t ∈ U, InImage I.w I.h t ∧ NonDegenerate t) →
      U.foldlM (fun (s : ℚ × ℚ) t => (triValue fl z I bs t).map fun v => (fl (s.1 + v), fl (s.2 + areaTerm fl t))) s =
      some ((U.map fun t => sumsDiff fl (sumsOf (triPixels fl z I t))).foldl (fun s x => fl (s + x)) s.1, (U.map area).foldl (fun s x => fl (s + x)) s.2) := by
    intro U
    induction U with
    | nil => intro s _; rfl
    | cons t U ih =>
      intro s hU
      have ht := hU t (by simp)
      rw [List.foldlM_cons]
      unfold triValue
      rw [triSums_of R z hI (by omega) (by omega) hb hb' ht.1 ht.2, areaTerm_eq R hw hh ht.1]
      simp only [Option.map_some, Option.bind_eq_bind, Option.bind_some, List.map_cons, List.foldl_cons]
      exact ih _ (fun t' h' => hU t' (by simp [h']))
  unfold evalTris
  rw [key T (0, 0) (fun t ht => ⟨M.img t ht, M.nondeg t ht⟩)]
  simp only [Option.bind_eq_bind, Option.bind_some]
  have ha : (T.map area).foldl (fun s x => fl (s + x)) 0 = (T.map area).sum := by
    have := foldl_area R (T.map area) 0 ?_ ?_
    · simpa using this
    · intro x hx
      obtain ⟨t, ht, rfl⟩ := List.mem_map.mp hx
      exact area_dy t
    · have := M.area
      have h1 : (I.w : ℚ) ≤ 32767 := by exact_mod_cast hw
      have h2 : (I.h : ℚ) ≤ 32767 := by exact_mod_cast hh
      have : (I.w : ℚ) * I.h ≤ 32767 * 32767 := mul_le_mul h1 h2 (by positivity) (by norm_num)
      norm_num at this ⊢
      linarith
  rw [ha]
  rfl

/-- The fitness from the total difference, when the area is not more than the image. -/
theorem finish_le (R : Rnd 53 fl) {I : Img} (hw1 : 1 ≤ I.w) (hh1 : 1 ≤ I.h) {D A : ℚ} (hw : I.w ≤ 32767) (hh : I.h ≤ 32767) (hA : A ≤ I.w * I.h)
    {K : ℚ} (hK : Dy K) (hD : -K ≤ D) : finish fl I D A ≤ fl (1 - fl (-K / (195075 * (I.w * I.h)))) := by
  have h1 : (I.w : ℚ) ≤ 32767 := by exact_mod_cast hw
  have h2 : (I.h : ℚ) ≤ 32767 := by exact_mod_cast hh
  have h3 : (1 : ℚ) ≤ I.w := by exact_mod_cast hw1
  have h4 : (1 : ℚ) ≤ I.h := by exact_mod_cast hh1
  have hwh : (I.w : ℚ) * I.h ≤ 32767 * 32767 := mul_le_mul h1 h2 (by positivity) (by norm_num)
  have hwh0 : (0 : ℚ) < I.w * I.h := by positivity
  have hwhN : ((I.w * I.h : ℕ) : ℤ) ≤ 32767 * 32767 := by
    have : I.w * I.h ≤ 32767 * 32767 := Nat.mul_le_mul hw hh
    exact_mod_cast this
  unfold finish
  simp only
  have e1 : fl ((I.w * I.h : Nat) : ℚ) = I.w * I.h := by
    have := R.int (n := ((I.w * I.h : ℕ) : ℤ)) (by rw [abs_of_nonneg (by positivity)]; exact hwhN.trans (by norm_num))
    push_cast at this ⊢
    exact this
  have e2 : fl ((maxPixelDifference * I.w * I.h : Int) : ℚ) = 195075 * (I.w * I.h) := by
    have : maxPixelDifference * I.w * I.h = 195075 * ((I.w * I.h : ℕ) : ℤ) := by unfold maxPixelDifference; push_cast; ring
    rw [this, R.int (by rw [abs_of_nonneg (by positivity)]; generalize ((I.w * I.h : ℕ) : ℤ) = k at *; norm_num at hwhN ⊢; linarith)]
    push_cast
    ring
  rw [e1, e2]
  have b0 : 0 ≤ fl (I.w * I.h - A) := R.nonneg (by linarith)
  have b1 : 0 ≤ fl (maxPixelDifference * fl (I.w * I.h - A)) := R.nonneg (mul_nonneg (by unfold maxPixelDifference; norm_num) b0)
  have c : -K ≤ fl (D + fl (maxPixelDifference * fl (I.w * I.h - A))) := by
    have := R.mono (-K) (D + fl (maxPixelDifference * fl (I.w * I.h - A))) (by linarith)
    rwa [R.fix (-K)] at this
    obtain ⟨n, hn, hb⟩ := hK
    exact ⟨-n, -6, by rwa [abs_neg], by rw [hn]; norm_num; ring⟩
  have d := R.mono (-K / (195075 * (I.w * I.h))) (fl (D + fl (maxPixelDifference * fl (I.w * I.h - A))) / (195075 * (I.w * I.h)))
    (div_le_div_of_nonneg_right c (by positivity))
  exact R.mono _ _ (by linarith)

theorem finish_le_one (R : Rnd 53 fl) {I : Img} (hw1 : 1 ≤ I.w) (hh1 : 1 ≤ I.h) {D A : ℚ} (hw : I.w ≤ 32767) (hh : I.h ≤ 32767) (hA : A ≤ I.w * I.h)
    (hD : 0 ≤ D) : finish fl I D A ≤ 1 := by
  have one : fl 1 = 1 := by have := R.int (n := 1) (by norm_num); simpa using this
  have := finish_le R (D := D) hw1 hh1 hw hh hA (K := 0) ⟨0, by simp, by norm_num⟩ (by linarith)
  simpa [R.zero, one] using this

theorem foldl_nonneg (R : Rnd 53 fl) : ∀ (l : List ℚ) (a : ℚ), 0 ≤ a → (∀ x ∈ l, 0 ≤ x) → 0 ≤ l.foldl (fun s x => fl (s + x)) a := by
  intro l
  induction l with
  | nil => intro a h _; exact h
  | cons x l ih =>
    intro a ha hl
    exact ih _ (R.nonneg (add_nonneg ha (hl x (by simp)))) (fun y hy => hl y (by simp [hy]))

/-- Cauchy-Schwarz for the sums: `S / n ≤` the sum of squares. -/
theorem sums_cauchy {ps : List Pixel} (h : ps ≠ []) :
    (((sumsOf ps).r ^ 2 + (sumsOf ps).g ^ 2 + (sumsOf ps).b ^ 2 : Int) : ℚ) / ps.length ≤ sqs (ps.map col) := by
  have hn : (0 : ℚ) < ps.length := by
    have := List.length_pos_iff.mpr h
    exact_mod_cast this
  have k := sqErr_nonneg (ps.map col) (mean (ps.map col))
  rw [sqErr_expand, ← sqs] at k
  simp only [mean, List.length_map] at k
  simp only [sumsOf]
  push_cast
  simp only [List.map_map, Function.comp_def, col] at k ⊢
  generalize (ps.map fun x => ((x.r : ℤ) : ℚ)).sum = a at *
  generalize (ps.map fun x => ((x.g : ℤ) : ℚ)).sum = b at *
  generalize (ps.map fun x => ((x.b : ℤ) : ℚ)).sum = c at *
  have e : 2 * (a / (ps.length : ℚ) * a + b / (ps.length : ℚ) * b + c / (ps.length : ℚ) * c) -
      ps.length * ((a / (ps.length : ℚ)) ^ 2 + (b / (ps.length : ℚ)) ^ 2 + (c / (ps.length : ℚ)) ^ 2) = (a ^ 2 + b ^ 2 + c ^ 2) / ps.length := by
    field_simp
    ring
  linarith

theorem w64_le {n : Int} (h : 0 ≤ n) : w64 n ≤ n := by
  unfold w64; rw [Int.bmod_def]; omega

theorem sumsDiff_nonneg_id {ps : List Pixel} (hsq : ∀ p ∈ ps, SqExact p) : 0 ≤ sumsDiff id (sumsOf ps) := by
  unfold sumsDiff
  split
  · rename_i h0
    have hne : ps ≠ [] := by rintro rfl; exact h0 rfl
    have c := sums_cauchy hne
    have e : (sumsOf ps).r * (sumsOf ps).r + (sumsOf ps).g * (sumsOf ps).g + (sumsOf ps).b * (sumsOf ps).b =
        (sumsOf ps).r ^ 2 + (sumsOf ps).g ^ 2 + (sumsOf ps).b ^ 2 := by ring
    have le : (w64 ((sumsOf ps).r ^ 2 + (sumsOf ps).g ^ 2 + (sumsOf ps).b ^ 2) : ℚ) ≤ (((sumsOf ps).r ^ 2 + (sumsOf ps).g ^ 2 + (sumsOf ps).b ^ 2 : Int) : ℚ) := by
      exact_mod_cast w64_le (by positivity)
    have ln : ((sumsOf ps).n : ℚ) = ps.length := by simp [sumsOf]
    simp only [id_eq]
    rw [e, sq_exact_sum hsq, ln]
    have := div_le_div_of_nonneg_right le (Nat.cast_nonneg (α := ℚ) ps.length)
    linarith
  · exact le_rfl

/-- **C37** in exact arithmetic (partial: the code rounds): the fitness of a triangulation of an 8-bit image is
at most 1. -/
theorem c37_exact_partial (z : ℚ) (f : Nat → Nat → Fin 256 × Fin 256 × Fin 256) {bs : Nat} (hb : 1 ≤ bs) (hb' : bs ≤ 16)
    (hw1 : 1 ≤ w) (hh1 : 1 ≤ h) (hw : w ≤ 32767) (hh : h ≤ 32767) (M : Mesh w h T) :
    ∃ v, evalTris id z (ofBytes id w h f) bs T = some v ∧ v ≤ 1 := by
  have R := id_rnd 53
  refine ⟨_, evalTris_eq R z (ofBytes_ok R w h f) hb hb' hw hh M, finish_le_one R hw1 hh1 hw hh M.area ?_⟩
  refine foldl_nonneg R _ _ le_rfl ?_
  intro x hx
  obtain ⟨t, ht, rfl⟩ := List.mem_map.mp hx
  refine sumsDiff_nonneg_id ?_
  intro p hp
  obtain ⟨q, -, rfl⟩ := List.mem_map.mp hp
  exact pixelOf_id w h f q

example : ∃ d v, exec (gridGeo ieee 40 30) (rne 53) 40 30 demoOps = some d ∧
    evalTris id 0 (ofBytes id 40 30 fun x y => if x < y then (7, 7, 7) else (9, 200, 0)) 5 (iterTriangles d) = some v ∧ v ≤ 1 := by
  obtain ⟨d, e⟩ := demo_exec
  obtain ⟨v, h1, h2⟩ := c37_exact_partial 0 (fun x y => if x < y then (7, 7, 7) else (9, 200, 0)) (bs := 5) (by norm_num) (by norm_num) (by norm_num)
    (by norm_num) (by norm_num) (by norm_num) (mesh_of demo_arith demo_hist e)
  exact ⟨d, v, e, h1, h2⟩

theorem sumsDiff_nonneg (R : Rnd 53 fl) {ps : List Pixel} (hu : ∀ p ∈ ps, p.Upto 1) (hsq : ∀ p ∈ ps, SqExact p) (hn : ps.length ≤ 214000) :
    0 ≤ sumsDiff fl (sumsOf ps) := by
  have hs := sumsOf_sq hu
  obtain ⟨-, -, -, q0, q1⟩ := sumsOf_upto hu
  have hn2 : (ps.length : Int) ^ 2 ≤ 214000 ^ 2 := pow_le_pow_left₀ (by positivity) (by exact_mod_cast hn) 2
  have hn1 : (ps.length : Int) ≤ 214000 := by exact_mod_cast hn
  unfold sumsDiff
  split
  · rename_i h0
    have hne : ps ≠ [] := by rintro rfl; exact h0 rfl
    have c := sums_cauchy hne
    have e : (sumsOf ps).r * (sumsOf ps).r + (sumsOf ps).g * (sumsOf ps).g + (sumsOf ps).b * (sumsOf ps).b =
        (sumsOf ps).r ^ 2 + (sumsOf ps).g ^ 2 + (sumsOf ps).b ^ 2 := by ring
    have e0 : 0 ≤ (sumsOf ps).r ^ 2 + (sumsOf ps).g ^ 2 + (sumsOf ps).b ^ 2 := by positivity
    rw [e]
    norm_num at hn2
    rw [w64_id (by omega) (by linarith), R.int (n := (sumsOf ps).r ^ 2 + (sumsOf ps).g ^ 2 + (sumsOf ps).b ^ 2) (by rw [abs_of_nonneg e0]; norm_num; linarith),
      R.int (n := (sumsOf ps).sq) (by rw [abs_of_nonneg q0]; norm_num; linarith),
      R.int (n := (sumsOf ps).n) (by simp only [sumsOf]; rw [abs_of_nonneg (by positivity)]; norm_num; linarith)]
    have ln : ((sumsOf ps).n : ℚ) = ps.length := by simp [sumsOf]
    rw [← sq_exact_sum hsq, ← ln] at c
    have := R.le_int (n := (sumsOf ps).sq) (by rw [abs_of_nonneg q0]; norm_num; linarith) c
    exact R.nonneg (by linarith)
  · exact le_rfl

theorem length_visits (R : Rnd 53 fl) (z : ℚ) (hw : w ≤ 32767) (hh : h ≤ 32767) (M : Mesh w h T) :
    (T.map fun t => (DDATriangle fl z t).length).sum ≤ w * h := by
  have hl : (T.map fun t => (DDATriangle fl z t).length).sum = (T.flatMap (DDATriangle fl z)).length := by
    rw [List.length_flatMap]
  have hnd : (T.flatMap (DDATriangle fl z)).Nodup := by
    rw [List.nodup_iff_count_le_one]
    intro q
    rw [List.count_flatMap]
    exact M.once fl R z q
  have hsub : (T.flatMap (DDATriangle fl z)).toFinset ⊆ Finset.Ico (0 : Int) w ×ˢ Finset.Ico (0 : Int) h := by
    rintro ⟨x, y⟩ hq
    rw [List.mem_toFinset, List.mem_flatMap] at hq
    obtain ⟨t, ht, hq⟩ := hq
    have := (c29_bounds R z (by omega) (by omega) t (M.img t ht) (bs := 1) (by norm_num)).2.2 _ hq
    unfold IsPixel at this
    simp only [Finset.mem_product, Finset.mem_Ico]
    omega
  have := Finset.card_le_card hsub
  rw [List.toFinset_card_of_nodup hnd, Finset.card_product, Int.card_Ico, Int.card_Ico] at this
  rw [hl]
  simpa using this

/-- **C37** when stored squares are exact (partial: it is a condition on the image): for images of at most 214000
pixels and any 53-bit rounding the fitness is at most 1. -/
theorem c37_exact_squares_partial (R : Rnd 53 fl) (z : ℚ) {I : Img} (hI : I.OK) {bs : Nat} (hb : 1 ≤ bs) (hb' : bs ≤ 16)
    (hw1 : 1 ≤ I.w) (hh1 : 1 ≤ I.h) (hw : I.w ≤ 32767) (hh : I.h ≤ 32767) (hs : I.w * I.h ≤ 214000)
    (hsq : ∀ x y, x < I.w → y < I.h → SqExact (mkPixel fl (I.px x y))) (M : Mesh I.w I.h T) :
    ∃ v, evalTris fl z I bs T = some v ∧ v ≤ 1 := by
  refine ⟨_, evalTris_eq R z hI hb hb' hw hh M, finish_le_one R hw1 hh1 hw hh M.area ?_⟩
  refine foldl_nonneg R _ _ le_rfl ?_
  intro x hx
  obtain ⟨t, ht, rfl⟩ := List.mem_map.mp hx
  refine sumsDiff_nonneg R (triPixels_upto R z hI (by omega) (by omega) (M.img t ht)) ?_ ?_
  · intro p hp
    obtain ⟨q, hq, rfl⟩ := List.mem_map.mp hp
    have := (c29_bounds R z (by omega) (by omega) t (M.img t ht) (bs := 1) (by norm_num)).2.2 q hq
    unfold IsPixel at this
    have k := hsq q.1.toNat q.2.toNat (by omega) (by omega)
    rwa [mkPixel_raw R (hI _ _ (by omega) (by omega))] at k
  · have a := length_visits R z hw hh M
    have b := List.single_le_sum (l := T.map fun t => (DDATriangle fl z t).length) (fun _ _ => Nat.zero_le _) _ (List.mem_map_of_mem ht)
    have c : (triPixels fl z I t).length = (DDATriangle fl z t).length := by unfold triPixels; simp
    omega

theorem sumsDiff_lower (R : Rnd 53 fl) {ps : List Pixel} (hu : ∀ p ∈ ps, p.Upto 1) (hn : ps.length ≤ 2 ^ 26)
    (hsq : sqs (ps.map col) - ps.length ≤ (sumsOf ps).sq) : -(ps.length : ℚ) - 1 / 64 ≤ sumsDiff fl (sumsOf ps) := by
  have hs := sumsOf_sq hu
  obtain ⟨-, -, -, q0, q1⟩ := sumsOf_upto hu
  have hn1 : (ps.length : ℚ) ≤ 2 ^ 26 := by exact_mod_cast hn
  have hn1' : (ps.length : Int) ≤ 2 ^ 26 := by exact_mod_cast hn
  unfold sumsDiff
  split
  · rename_i h0
    have hne : ps ≠ [] := by rintro rfl; exact h0 rfl
    have c := sums_cauchy hne
    have hlen : (0 : ℚ) < ps.length := by
      have := List.length_pos_iff.mpr hne
      exact_mod_cast this
    have e : (sumsOf ps).r * (sumsOf ps).r + (sumsOf ps).g * (sumsOf ps).g + (sumsOf ps).b * (sumsOf ps).b =
        (sumsOf ps).r ^ 2 + (sumsOf ps).g ^ 2 + (sumsOf ps).b ^ 2 := by ring
    have e0 : 0 ≤ (sumsOf ps).r ^ 2 + (sumsOf ps).g ^ 2 + (sumsOf ps).b ^ 2 := by positivity
    rw [e, R.int (n := (sumsOf ps).sq) (by rw [abs_of_nonneg q0]; norm_num at hn1' ⊢; linarith),
      R.int (n := (sumsOf ps).n) (by simp only [sumsOf]; rw [abs_of_nonneg (by positivity)]; norm_num at hn1' ⊢; linarith)]
    have ln : ((sumsOf ps).n : ℚ) = ps.length := by simp [sumsOf]
    rw [ln]
    have wl : ((w64 ((sumsOf ps).r ^ 2 + (sumsOf ps).g ^ 2 + (sumsOf ps).b ^ 2) : Int) : ℚ) ≤ (((sumsOf ps).r ^ 2 + (sumsOf ps).g ^ 2 + (sumsOf ps).b ^ 2 : Int) : ℚ) := by
      exact_mod_cast w64_le e0
    have f1 := R.mono _ _ wl
    have f2 := R.mono _ _ (div_le_div_of_nonneg_right f1 hlen.le)
    have S0 : (0 : ℚ) ≤ (((sumsOf ps).r ^ 2 + (sumsOf ps).g ^ 2 + (sumsOf ps).b ^ 2 : Int) : ℚ) := by exact_mod_cast e0
    have S1 : (((sumsOf ps).r ^ 2 + (sumsOf ps).g ^ 2 + (sumsOf ps).b ^ 2 : Int) : ℚ) / ps.length ≤ 195075 * 2 ^ 26 := by
      rw [div_le_iff₀ hlen]
      have : (((sumsOf ps).r ^ 2 + (sumsOf ps).g ^ 2 + (sumsOf ps).b ^ 2 : Int) : ℚ) ≤ 195075 * (ps.length : ℚ) ^ 2 := by exact_mod_cast hs
      nlinarith
    generalize (w64 ((sumsOf ps).r ^ 2 + (sumsOf ps).g ^ 2 + (sumsOf ps).b ^ 2) : ℚ) = W at *
    generalize (((sumsOf ps).r ^ 2 + (sumsOf ps).g ^ 2 + (sumsOf ps).b ^ 2 : Int) : ℚ) = S at *
    have r1 := R.hi S0
    have F0 : 0 ≤ fl S / ps.length := div_nonneg (R.nonneg S0) hlen.le
    have r2 := R.hi F0
    have r1' : fl S / ps.length ≤ S / ps.length * (1 + 1 / 2 ^ 53) := by
      rw [div_mul_eq_mul_div]; exact div_le_div_of_nonneg_right r1 hlen.le
    generalize fl S / (ps.length : ℚ) = F at *
    generalize S / (ps.length : ℚ) = q at *
    generalize fl (fl W / (ps.length : ℚ)) = G at *
    have hQ : -(ps.length : ℚ) - 1 / 64 ≤ (sumsOf ps).sq - G := by
      norm_num at r1' r2 S1
      linarith
    have := R.mono _ _ hQ
    rwa [R.fix] at this
    refine ⟨-(64 * ps.length + 1 : ℤ), -6, ?_, by push_cast; norm_num; ring⟩
    rw [abs_neg, abs_of_nonneg (by positivity)]
    norm_num at hn1' ⊢
    linarith
  · linarith [(Nat.cast_nonneg ps.length : (0 : ℚ) ≤ ps.length)]

/-- Lower bound of the accumulated difference. -/
theorem foldl_lower (R : Rnd 53 fl) : ∀ (l : List (ℚ × ℕ)) (a : ℚ) (k : ℕ), -(k : ℚ) / 64 ≤ a → (∀ x ∈ l, -(x.2 : ℚ) / 64 ≤ x.1) →
    k + (l.map Prod.snd).sum ≤ 2 ^ 50 → -((k + (l.map Prod.snd).sum : ℕ) : ℚ) / 64 ≤ (l.map Prod.fst).foldl (fun s x => fl (s + x)) a := by
  intro l
  induction l with
  | nil => intro a k ha _ _; simpa using ha
  | cons x l ih =>
    intro a k ha hl hk
    simp only [List.map_cons, List.sum_cons, List.foldl_cons] at hk ⊢
    have hx := hl x (by simp)
    have step : -((k + x.2 : ℕ) : ℚ) / 64 ≤ fl (a + x.1) := by
      have := R.mono (-((k + x.2 : ℕ) : ℚ) / 64) (a + x.1) (by push_cast; linarith)
      rwa [R.fix] at this
      refine ⟨-((k + x.2 : ℕ) : ℤ), -6, ?_, by push_cast; norm_num; ring⟩
      rw [abs_neg, abs_of_nonneg (by positivity)]
      have h1 : k + x.2 ≤ 2 ^ 50 := by omega
      have : ((k + x.2 : ℕ) : ℤ) ≤ 2 ^ 50 := by exact_mod_cast h1
      exact this.trans (by norm_num)
    have := ih (fl (a + x.1)) (k + x.2) step (fun y hy => hl y (by simp [hy])) (by omega)
    rwa [Nat.add_assoc] at this

theorem mesh_count (M : Mesh w h T) : T.length ≤ 2 * (w * h) := by
  have : ∀ U : List Tri, (∀ t ∈ U, InImage w h t ∧ NonDegenerate t) → (U.length : ℚ) ≤ 2 * (U.map area).sum := by
    intro U
    induction U with
    | nil => intro _; simp
    | cons t U ih =>
      intro hU
      have a := ih (fun t' h' => hU t' (by simp [h']))
      obtain ⟨n, hn⟩ := area_dy t
      have hd := (hU t (by simp)).2
      have hpos : 0 < area t := by unfold area; exact div_pos (abs_pos.mpr hd) (by norm_num)
      have : 1 ≤ n := by
        by_contra h0
        have : n = 0 := by omega
        rw [hn, this] at hpos
        simp at hpos
      have : (1 : ℚ) ≤ n := by exact_mod_cast this
      simp only [List.length_cons, List.map_cons, List.sum_cons]
      push_cast
      rw [hn]
      linarith
  have k := this T (fun t ht => ⟨M.img t ht, M.nondeg t ht⟩)
  have : (T.length : ℚ) ≤ ((2 * (w * h) : ℕ) : ℚ) := by push_cast; linarith [M.area]
  exact_mod_cast this

/-- **C37** for IEEE doubles (partial: the bound 1 is exceeded by the loss in stored squares, see
`c37_ieee_false`): the fitness of any 8-bit image is at most 1 + 1/180000. -/
theorem c37_ieee_partial (z : ℚ) (f : Nat → Nat → Fin 256 × Fin 256 × Fin 256) {bs : Nat} (hb : 1 ≤ bs) (hb' : bs ≤ 16)
    (hw1 : 1 ≤ w) (hh1 : 1 ≤ h) (hw : w ≤ 8191) (hh : h ≤ 8191) (M : Mesh w h T) :
    ∃ v, evalTris (rne 53) z (ofBytes (rne 53) w h f) bs T = some v ∧ v ≤ 1 + 1 / 180000 := by
  have R : Rnd 53 (rne 53) := rne_rnd (by norm_num)
  have hI := ofBytes_ok R w h f
  refine ⟨_, evalTris_eq R z hI hb hb' (by show w ≤ 32767; omega) (by show h ≤ 32767; omega) M, ?_⟩
  have hcnt := mesh_count M
  have hlen := length_visits R z (by omega) (by omega) M
  have hwh : w * h ≤ 8191 * 8191 := Nat.mul_le_mul hw hh
  let L : List (ℚ × ℕ) := T.map fun t => (sumsDiff (rne 53) (sumsOf (triPixels (rne 53) z (ofBytes (rne 53) w h f) t)),
    64 * (DDATriangle (rne 53) z t).length + 1)
  have eL : (T.map fun t => sumsDiff (rne 53) (sumsOf (triPixels (rne 53) z (ofBytes (rne 53) w h f) t))) = L.map Prod.fst := by
    simp only [L, List.map_map]; rfl
  have sL : (L.map Prod.snd).sum = 64 * (T.map fun t => (DDATriangle (rne 53) z t).length).sum + T.length := by
    simp only [L, List.map_map]
    clear hcnt hlen M eL
    induction T with
    | nil => simp
    | cons t T ih =>
      simp only [List.map_cons, List.sum_cons, Function.comp_apply, List.length_cons] at ih ⊢
      rw [ih]
      ring
  have low := foldl_lower R L 0 0 (by simp) ?_ (by rw [sL]; norm_num; omega)
  · rw [eL]
    rw [Nat.zero_add, sL] at low
    have hK : 64 * (T.map fun t => (DDATriangle (rne 53) z t).length).sum + T.length ≤ 66 * (w * h) := by omega
    have hKq : (((64 * (T.map fun t => (DDATriangle (rne 53) z t).length).sum + T.length : ℕ)) : ℚ) ≤ 66 * (w * h) := by exact_mod_cast hK
    generalize 64 * (T.map fun t => (DDATriangle (rne 53) z t).length).sum + T.length = K at *
    generalize (L.map Prod.fst).foldl (fun s x => rne 53 (s + x)) 0 = D at *
    have dy : Dy ((K : ℚ) / 64) := ⟨K, by push_cast; ring, by rw [abs_of_nonneg (by positivity)]; norm_num; omega⟩
    have hw0 : (0 : ℚ) < w := by exact_mod_cast hw1
    have hh0 : (0 : ℚ) < h := by exact_mod_cast hh1
    have fin := finish_le R (I := ofBytes (rne 53) w h f) hw1 hh1 (by show w ≤ 32767; omega) (by show h ≤ 32767; omega) M.area dy
      (show -((K : ℚ) / 64) ≤ D by rw [← neg_div]; exact low)
    have x0 : (0 : ℚ) ≤ K / 64 / (195075 * (w * h)) := by positivity
    have x1 : (K : ℚ) / 64 / (195075 * (w * h)) ≤ 66 / 64 / 195075 := by
      rw [div_le_iff₀ (by positivity)]
      have : (66 : ℚ) / 64 / 195075 * (195075 * (w * h)) = 66 * (w * h) / 64 := by ring
      rw [this]
      linarith
    change finish (rne 53) (ofBytes (rne 53) w h f) D (T.map area).sum ≤ rne 53 (1 - rne 53 (-(K / 64) / (195075 * (w * h)))) at fin
    rw [neg_div, rne_neg, sub_neg_eq_add] at fin
    refine fin.trans ?_
    have r1 := R.hi x0
    have r0 := R.nonneg x0
    have r2 := R.hi (x := 1 + rne 53 (K / 64 / (195075 * (w * h)))) (by linarith)
    generalize rne 53 ((K : ℚ) / 64 / (195075 * (w * h))) = a at *
    generalize (K : ℚ) / 64 / (195075 * (w * h)) = b at *
    refine r2.trans ?_
    norm_num at x1 r1 ⊢
    linarith
  · intro x hx
    obtain ⟨t, ht, rfl⟩ := List.mem_map.mp hx
    have hu := triPixels_upto R z hI (by show w ≤ 32768; omega) (by show h ≤ 32768; omega) (M.img t ht)
    have len : (triPixels (rne 53) z (ofBytes (rne 53) w h f) t).length = (DDATriangle (rne 53) z t).length := by unfold triPixels; simp
    have one := List.single_le_sum (l := T.map fun t => (DDATriangle (rne 53) z t).length) (fun _ _ => Nat.zero_le _) _ (List.mem_map_of_mem ht)
    have sb := (sq_bounds R w h f (DDATriangle (rne 53) z t)).1
    have hc : (triPixels (rne 53) z (ofBytes (rne 53) w h f) t).map col = (DDATriangle (rne 53) z t).map (byteCol f) := by
      unfold triPixels
      rw [List.map_map]
      exact List.map_congr_left fun q _ => col_pixelOf chan_bytes w h f q
    have := sumsDiff_lower R hu (by rw [len]; norm_num; omega) (by rw [hc, len]; exact sb)
    rw [len] at this
    push_cast
    linarith

end

/-- The four corners. -/
def cornerOps (w h : Nat) : List Op := [.ins ⟨0, 0⟩, .ins ⟨w, 0⟩, .ins ⟨0, h⟩, .ins ⟨w, h⟩]

/-- An image of one grey value. -/
def grey (fl : ℚ → ℚ) (k : Fin 256) (w h : Nat) : Img := ofBytes fl w h fun _ _ => (k, k, k)

/-- **C37** is false of the code: with IEEE arithmetic a 4 x 4 image of grey value 7, triangulated by its corners,
has a fitness above 1. -/
theorem c37_ieee_false : ∃ d v, exec (gridGeo ieee 4 4) (rne 53) 4 4 (cornerOps 4 4) = some d ∧
    evalTris (rne 53) 0 (grey (rne 53) 7 4 4) 2 (iterTriangles d) = some v ∧ 1 < v := by
  have key : ((exec (gridGeo ieee 4 4) (rne 53) 4 4 (cornerOps 4 4)).bind fun d =>
      (evalTris (rne 53) 0 (grey (rne 53) 7 4 4) 2 (iterTriangles d)).map fun v => decide (1 < v)) = some true := by
    decide +kernel
  rw [Option.bind_eq_some_iff] at key
  obtain ⟨d, h1, h2⟩ := key
  rw [Option.map_eq_some_iff] at h2
  obtain ⟨v, h3, h4⟩ := h2
  exact ⟨d, v, h1, h3, of_decide_eq_true h4⟩

/-- A black and white image has exact squares. -/
def checker (fl : ℚ → ℚ) (w h : Nat) : Img := ofBytes fl w h fun x y => if (x + y) % 2 = 0 then (0, 0, 0) else (255, 255, 255)

example : ∃ d v, exec (gridGeo ieee 40 30) (rne 53) 40 30 demoOps = some d ∧
    evalTris (rne 53) 0 (checker (rne 53) 40 30) 5 (iterTriangles d) = some v ∧ v ≤ 1 := by
  obtain ⟨d, e⟩ := demo_exec
  have R : Rnd 53 (rne 53) := rne_rnd (by norm_num)
  obtain ⟨v, h1, h2⟩ := c37_exact_squares_partial R 0 (I := checker (rne 53) 40 30) (ofBytes_ok R 40 30 _) (bs := 5) (by norm_num) (by norm_num)
    (by simp [checker, ofBytes]) (by simp [checker, ofBytes]) (by simp [checker, ofBytes]) (by simp [checker, ofBytes]) (by simp [checker, ofBytes])
    (by
      intro x y _ _
      have : mkPixel (rne 53) ((checker (rne 53) 40 30).px x y) = ⟨0, 0, 0, 0⟩ ∨ mkPixel (rne 53) ((checker (rne 53) 40 30).px x y) = ⟨255, 255, 255, 195075⟩ := by
        simp only [checker, ofBytes]
        by_cases hp : (x + y) % 2 = 0
        · left; simp only [hp, if_true]; decide +kernel
        · right; simp only [hp, if_false]; decide +kernel
      rcases this with h | h <;> rw [h] <;> simp [SqExact])
    (mesh_of demo_arith demo_hist e)
  exact ⟨d, v, e, h1, h2⟩

example : ∃ d v, exec (gridGeo ieee 40 30) (rne 53) 40 30 demoOps = some d ∧
    evalTris (rne 53) 0 (grey (rne 53) 7 40 30) 5 (iterTriangles d) = some v ∧ v ≤ 1 + 1 / 180000 := by
  obtain ⟨d, e⟩ := demo_exec
  obtain ⟨v, h1, h2⟩ := c37_ieee_partial 0 (fun _ _ => (7, 7, 7)) (bs := 5) (by norm_num) (by norm_num) (by norm_num) (by norm_num) (by norm_num) (by norm_num)
    (mesh_of demo_arith demo_hist e)
  exact ⟨d, v, e, h1, h2⟩

end Verif.Props

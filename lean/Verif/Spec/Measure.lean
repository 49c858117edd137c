import Verif.Spec.Plane
import Mathlib.MeasureTheory.Measure.Lebesgue.EqHaar
import Mathlib.MeasureTheory.Group.Prod
import Mathlib.MeasureTheory.Measure.Haar.Unique

/-!
# Areas of triangles that do not overlap

The areas of triangles in a rectangle whose interiors are disjoint add up to at most the area of the rectangle: Lebesgue measure in the plane.
-/

namespace Verif.Spec

open Verif.Incr (Pt Tri)
open MeasureTheory

instance : (volume : Measure (ℝ × ℝ)).IsAddHaarMeasure := inferInstanceAs ((volume : Measure ℝ).prod (volume : Measure ℝ)).IsAddHaarMeasure

/-- Twice the signed area of `a b q` for a location with real coordinates. -/
def rarea (a b : Pt) (q : ℝ × ℝ) : ℝ := (b.x - a.x) * (q.2 - a.y) - (b.y - a.y) * (q.1 - a.x)

/-- The open triangle in the real plane. -/
def openTri (t : Tri) : Set (ℝ × ℝ) :=
  {q | 0 < rarea t.a t.b (t.c.x, t.c.y) * rarea t.a t.b q ∧ 0 < rarea t.a t.b (t.c.x, t.c.y) * rarea t.b t.c q ∧ 0 < rarea t.a t.b (t.c.x, t.c.y) * rarea t.c t.a q}

theorem openTri_open (t : Tri) : IsOpen (openTri t) := by
  have c : ∀ a b : Pt, Continuous fun q : ℝ × ℝ => rarea t.a t.b (t.c.x, t.c.y) * rarea a b q := by
    intro a b
    unfold rarea
    fun_prop
  exact (isOpen_lt continuous_const (c _ _)).inter ((isOpen_lt continuous_const (c _ _)).inter (isOpen_lt continuous_const (c _ _)))

/-- The standard triangle. -/
def std : Set (ℝ × ℝ) := {p | 0 < p.1 ∧ 0 < p.2 ∧ p.1 + p.2 < 1}

theorem diag_null : volume {p : ℝ × ℝ | p.1 + p.2 = 1} = 0 := by
  have h0 := Measure.addHaar_submodule (volume : Measure (ℝ × ℝ)) (LinearMap.ker (LinearMap.fst ℝ ℝ ℝ + LinearMap.snd ℝ ℝ ℝ)) (by
    intro h
    have : ((1, 0) : ℝ × ℝ) ∈ LinearMap.ker (LinearMap.fst ℝ ℝ ℝ + LinearMap.snd ℝ ℝ ℝ) := by rw [h]; trivial
    simp at this)
  have e : {p : ℝ × ℝ | p.1 + p.2 = 1} = (fun p => p + ((-1, 0) : ℝ × ℝ)) ⁻¹' (LinearMap.ker (LinearMap.fst ℝ ℝ ℝ + LinearMap.snd ℝ ℝ ℝ) : Set (ℝ × ℝ)) := by
    ext p
    simp only [Set.mem_ofPred_eq, Set.mem_preimage, SetLike.mem_coe, LinearMap.mem_ker, LinearMap.add_apply, LinearMap.fst_apply, LinearMap.snd_apply, Prod.fst_add, Prod.snd_add]
    constructor <;> intro h <;> linarith
  rw [e, measure_preimage_add_right, h0]

theorem std_volume : ENNReal.ofReal (1 / 2) ≤ volume std := by
  have sq : volume (Set.Ioo (0 : ℝ) 1 ×ˢ Set.Ioo (0 : ℝ) 1) = 1 := by
    rw [Measure.volume_eq_prod, Measure.prod_prod, Real.volume_Ioo]
    simp
  have cover : Set.Ioo (0 : ℝ) 1 ×ˢ Set.Ioo (0 : ℝ) 1 ⊆ (std ∪ (fun p => ((1, 1) : ℝ × ℝ) - p) ⁻¹' std) ∪ {p : ℝ × ℝ | p.1 + p.2 = 1} := by
    rintro ⟨x, y⟩ ⟨⟨h1, h2⟩, h3, h4⟩
    simp only at h1 h2 h3 h4
    rcases lt_trichotomy (x + y) 1 with h | h | h
    · exact Or.inl (Or.inl ⟨h1, h3, h⟩)
    · exact Or.inr h
    · refine Or.inl (Or.inr ⟨?_, ?_, ?_⟩) <;> simp <;> linarith
  have r : volume ((fun p => ((1, 1) : ℝ × ℝ) - p) ⁻¹' std) = volume std := by
    have := (Measure.measurePreserving_sub_left (volume : Measure (ℝ × ℝ)) ((1, 1) : ℝ × ℝ))
    refine this.measure_preimage (IsOpen.measurableSet ?_).nullMeasurableSet
    exact (isOpen_lt continuous_const continuous_fst).inter ((isOpen_lt continuous_const continuous_snd).inter (isOpen_lt (continuous_fst.add continuous_snd) continuous_const))
  have h := measure_mono (μ := volume) cover
  have h' := (h.trans (measure_union_le _ _)).trans (add_le_add_left (measure_union_le _ _) _)
  rw [sq, diag_null, r, add_zero, ← two_mul] at h'
  have : ENNReal.ofReal (1 / 2) = 1 / 2 := by
    rw [ENNReal.ofReal_div_of_pos (by norm_num)]; simp
  rw [this]
  exact ENNReal.div_le_of_le_mul' h'

/-- The measure of the open triangle is at least half the absolute value of the determinant (it is equal). -/
theorem openTri_volume (t : Tri) : ENNReal.ofReal (|rarea t.a t.b (t.c.x, t.c.y)| / 2) ≤ volume (openTri t) := by
  set D := rarea t.a t.b (t.c.x, t.c.y) with hD
  by_cases h0 : D = 0
  · rw [h0]; simp
  let M : (ℝ × ℝ) →ₗ[ℝ] (ℝ × ℝ) := Matrix.toLin (Module.Basis.finTwoProd ℝ) (Module.Basis.finTwoProd ℝ)
    !![(t.b.x : ℝ) - t.a.x, (t.c.x : ℝ) - t.a.x; (t.b.y : ℝ) - t.a.y, (t.c.y : ℝ) - t.a.y]
  have dM : LinearMap.det M = D := by
    rw [LinearMap.det_toLin, Matrix.det_fin_two_of, hD]
    unfold rarea
    simp only
    ring
  have v := Measure.addHaar_image_linearMap (volume : Measure (ℝ × ℝ)) M std
  rw [dM] at v
  have sub : M '' std ⊆ (fun p => p + ((t.a.x, t.a.y) : ℝ × ℝ)) ⁻¹' openTri t := by
    rintro _ ⟨⟨x, y⟩, ⟨h1, h2, h3⟩, rfl⟩
    simp only at h1 h2 h3
    have e : M (x, y) = (((t.b.x : ℝ) - t.a.x) * x + ((t.c.x : ℝ) - t.a.x) * y, ((t.b.y : ℝ) - t.a.y) * x + ((t.c.y : ℝ) - t.a.y) * y) :=
      Matrix.toLin_finTwoProd_apply _ _ _ _ _
    simp only [Set.mem_preimage, e]
    have p : 0 < D * D := mul_self_pos.mpr h0
    refine ⟨?_, ?_, ?_⟩
    · rw [← hD, show rarea t.a t.b _ = D * y by rw [hD]; unfold rarea; simp only [Prod.mk_add_mk]; ring, ← mul_assoc]
      exact mul_pos p h2
    · rw [← hD, show rarea t.b t.c _ = D * (1 - x - y) by rw [hD]; unfold rarea; simp only [Prod.mk_add_mk]; ring, ← mul_assoc]
      exact mul_pos p (by linarith)
    · rw [← hD, show rarea t.c t.a _ = D * x by rw [hD]; unfold rarea; simp only [Prod.mk_add_mk]; ring, ← mul_assoc]
      exact mul_pos p h1
  have := measure_mono (μ := volume) sub
  rw [measure_preimage_add_right, v] at this
  refine le_trans ?_ this
  rw [div_eq_mul_one_div, ENNReal.ofReal_mul (abs_nonneg _)]
  exact mul_le_mul_right std_volume _

theorem openTri_list : ∀ {T : List Tri}, T.Pairwise (fun t t' => Disjoint (openTri t) (openTri t')) →
    (T.map fun t => volume (openTri t)).sum = volume (⋃ t ∈ T, openTri t)
  | [], _ => by simp
  | t :: T, h => by
    rw [List.pairwise_cons] at h
    have hd : Disjoint (openTri t) (⋃ t ∈ T, openTri t) := Set.disjoint_iUnion₂_right.mpr fun t' ht' => h.1 t' ht'
    have hm : MeasurableSet (⋃ t ∈ T, openTri t) := (isOpen_biUnion fun t _ => openTri_open t).measurableSet
    rw [List.map_cons, List.sum_cons, openTri_list h.2, ← measure_union hd hm]
    congr 1
    ext q
    simp

/-- Triangles in a rectangle with disjoint interiors: the areas add up to at most the area of the rectangle. -/
theorem area_sum_le {T : List Tri} (h : T.Pairwise fun t t' => Disjoint (openTri t) (openTri t')) {w k : Nat}
    (img : ∀ t ∈ T, openTri t ⊆ Set.Icc (0 : ℝ) w ×ˢ Set.Icc (0 : ℝ) k) :
    (T.map fun t => |area2 t.a t.b (loc t.c)| / 2).sum ≤ w * k := by
  have e := openTri_list h
  have sub : (⋃ t ∈ T, openTri t) ⊆ Set.Icc (0 : ℝ) w ×ˢ Set.Icc (0 : ℝ) k := Set.iUnion₂_subset img
  have m := measure_mono (μ := volume) sub
  rw [← e, Measure.volume_eq_prod, Measure.prod_prod, Real.volume_Icc, Real.volume_Icc, ← ENNReal.ofReal_mul (by simp)] at m
  have low : ∀ L : List Tri, ENNReal.ofReal (((L.map fun t => |area2 t.a t.b (loc t.c)| / 2).sum : ℚ) : ℝ) ≤ (L.map fun t => volume (openTri t)).sum := by
    intro L
    induction L with
    | nil => simp
    | cons t L ih =>
      rw [List.map_cons, List.map_cons, List.sum_cons, List.sum_cons, Rat.cast_add]
      refine (ENNReal.ofReal_add_le).trans (add_le_add ?_ ih)
      refine le_trans (le_of_eq ?_) (openTri_volume t)
      congr 1
      unfold area2 rarea loc
      push_cast
      rfl
  have f := (low T).trans m
  rw [ENNReal.ofReal_le_ofReal_iff (by rw [sub_zero, sub_zero]; positivity)] at f
  have : (((T.map fun t => |area2 t.a t.b (loc t.c)| / 2).sum : ℚ) : ℝ) ≤ ((w * k : ℚ) : ℝ) := by
    push_cast at f ⊢
    linarith
  exact_mod_cast this

end Verif.Spec

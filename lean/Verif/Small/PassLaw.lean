import Verif.Small.Density

/-!
# The law of the numbers returned by a pass of `NormFloat64`
-/

namespace Verif.Small

open MeasureTheory

/-- The draws of a pass that make it return a number of `B` from strip `i`: `U` for `j / 2^31`, and `u` for the height. -/
def StripSet (i : Nat) (B : Set ℝ) : Set (ℝ × ℝ) :=
  {p | p.1 ∈ Set.Icc (-1 : ℝ) 1 ∧ p.2 ∈ Set.Icc (0 : ℝ) 1 ∧ p.1 * zx i ∈ B ∧ Takes i (p.1 * zx i) p.2}

/-- The probability that a pass returns a number of `B`, without the inner loop: each of the 128 strips has probability 1/128, `U` is uniform in `[-1, 1]`. -/
noncomputable def passProb (B : Set ℝ) : ENNReal := ∑ i ∈ Finset.range 128, ENNReal.ofReal (1 / 256) * volume (StripSet i B)

theorem measurable_gauss : Measurable gauss := by
  unfold gauss
  fun_prop

theorem measurable_hitR (i : Nat) : Measurable (hitR i) := by
  unfold hitR
  refine Measurable.ite (measurableSet_lt (by fun_prop) (by fun_prop)) (by fun_prop) ?_
  split
  · fun_prop
  · have := measurable_gauss
    fun_prop

theorem measurable_strip (i : Nat) {B : Set ℝ} (hB : MeasurableSet B) : MeasurableSet (StripSet i B) := by
  have hm : Measurable fun p : ℝ × ℝ => p.1 * (zx i : ℝ) := by fun_prop
  have hg : Measurable fun p : ℝ × ℝ => gauss (p.1 * (zx i : ℝ)) := measurable_gauss.comp hm
  have h1 : MeasurableSet {p : ℝ × ℝ | p.1 ∈ Set.Icc (-1 : ℝ) 1} := measurable_fst measurableSet_Icc
  have h2 : MeasurableSet {p : ℝ × ℝ | p.2 ∈ Set.Icc (0 : ℝ) 1} := measurable_snd measurableSet_Icc
  have h3 : MeasurableSet {p : ℝ × ℝ | p.1 * zx i ∈ B} := hm hB
  have h4 : MeasurableSet {p : ℝ × ℝ | |p.1 * zx i| < zk i} := measurableSet_lt (by fun_prop) (by fun_prop)
  have h5 : MeasurableSet {p : ℝ × ℝ | zf i + p.2 * (zf (i - 1) - zf i) < gauss (p.1 * zx i)} := measurableSet_lt (by fun_prop) hg
  have h6 : MeasurableSet {_p : ℝ × ℝ | 1 ≤ i} := MeasurableSet.const _
  exact h1.inter (h2.inter (h3.inter (h4.union (h6.inter h5))))

theorem strip_volume {i : Nat} (hi : i < 128) (hz : 0 < zx i) {B : Set ℝ} (hB : MeasurableSet B) :
    ENNReal.ofReal (1 / 256) * volume (StripSet i B) = ∫⁻ x in B, ENNReal.ofReal (if |x| ≤ zx i then hitR i x / (256 * zx i) else 0) := by
  have hz' : (0 : ℝ) < zx i := by exact_mod_cast hz
  have hms : Measurable fun x : ℝ => ENNReal.ofReal (if |x| ≤ zx i then hitR i x else 0) :=
    ENNReal.measurable_ofReal.comp (Measurable.ite (measurableSet_le (by fun_prop) (by fun_prop)) (measurable_hitR i) (by fun_prop))
  have hmg : Measurable (B.indicator fun x : ℝ => ENNReal.ofReal (if |x| ≤ zx i then hitR i x else 0)) := hms.indicator hB
  have sec : ∀ U : ℝ, volume (Prod.mk U ⁻¹' StripSet i B) = B.indicator (fun x : ℝ => ENNReal.ofReal (if |x| ≤ zx i then hitR i x else 0)) (U * zx i) := by
    intro U
    have hU : U ∈ Set.Icc (-1 : ℝ) 1 ↔ |U * zx i| ≤ zx i := by
      rw [abs_mul, abs_of_pos hz', Set.mem_Icc, ← abs_le]
      constructor
      · intro h; nlinarith
      · intro h; nlinarith
    by_cases hb : U * zx i ∈ B
    · rw [Set.indicator_of_mem hb]
      by_cases hx : |U * zx i| ≤ zx i
      · rw [if_pos hx, ← hit_eq hi]
        unfold hit
        congr 1
        ext u
        simp only [StripSet, Set.mem_preimage, Set.mem_ofPred_eq, hb, true_and, hU, hx]
      · rw [if_neg hx, ENNReal.ofReal_zero]
        have : Prod.mk U ⁻¹' StripSet i B = ∅ := by
          ext u
          simp only [StripSet, Set.mem_preimage, Set.mem_ofPred_eq, hU, hx, false_and, Set.mem_empty_iff_false]
        rw [this, measure_empty]
    · rw [Set.indicator_of_notMem hb]
      have : Prod.mk U ⁻¹' StripSet i B = ∅ := by
        ext u
        simp only [StripSet, Set.mem_preimage, Set.mem_ofPred_eq, hb, false_and, and_false, Set.mem_empty_iff_false]
      rw [this, measure_empty]
  rw [Measure.volume_eq_prod, Measure.prod_apply (measurable_strip i hB), lintegral_congr sec,
    ← lintegral_map (μ := volume) (g := fun U : ℝ => U * zx i) hmg (by fun_prop), Real.map_volume_mul_right hz'.ne', lintegral_smul_measure,
    lintegral_indicator hB, abs_of_pos (inv_pos.mpr hz'), smul_eq_mul, ← mul_assoc, ← ENNReal.ofReal_mul (by norm_num), ← lintegral_const_mul _ hms]
  refine lintegral_congr fun x => ?_
  rw [← ENNReal.ofReal_mul (by positivity)]
  congr 1
  split
  · field_simp
  · simp

theorem zx_pos {i : Nat} (hi : i < 128) : 0 < zx i := by
  rcases Nat.eq_zero_or_pos i with rfl | h
  · obtain ⟨-, -, -, -, -, -, -, k3, k4, -⟩ := base_strip
    exact k3.trans k4
  · exact (strip h hi).width.1

/-- `density` is the density of that law. -/
theorem passProb_eq {B : Set ℝ} (hB : MeasurableSet B) : passProb B = ∫⁻ x in B, ENNReal.ofReal (density x) := by
  unfold passProb density
  rw [Finset.sum_congr rfl fun i hi => strip_volume (Finset.mem_range.mp hi) (zx_pos (Finset.mem_range.mp hi)) hB]
  rw [← lintegral_finsetSum]
  · refine lintegral_congr fun x => ?_
    rw [ENNReal.ofReal_sum_of_nonneg]
    intro i hi
    have hi := Finset.mem_range.mp hi
    have : (0 : ℝ) < zx i := by exact_mod_cast zx_pos hi
    have := hitR_nonneg hi x
    split
    · positivity
    · exact le_rfl
  · intro i _
    exact ENNReal.measurable_ofReal.comp (Measurable.ite (measurableSet_le (by fun_prop) (by fun_prop)) ((measurable_hitR i).div_const _) (by fun_prop))

/-- The law is that of the normal distribution up to 1 in 100000, between the thresholds of the base strip. -/
theorem passProb_close {B : Set ℝ} (hB : MeasurableSet B) (hs : ∀ x ∈ B, |x| < zk 0) :
    ENNReal.ofReal ((1 - 1 / 10 ^ 5) / (256 * zv)) * ∫⁻ x in B, ENNReal.ofReal (gauss x) ≤ passProb B ∧
      passProb B ≤ ENNReal.ofReal ((1 + 1 / 10 ^ 5) / (256 * zv)) * ∫⁻ x in B, ENNReal.ofReal (gauss x) := by
  have hg : Measurable fun x => ENNReal.ofReal (gauss x) := ENNReal.measurable_ofReal.comp measurable_gauss
  have v0 : (0 : ℝ) < zv := by unfold zv; norm_num
  rw [passProb_eq hB, ← lintegral_const_mul _ hg, ← lintegral_const_mul _ hg]
  constructor
  · refine setLIntegral_mono' hB fun x hx => ?_
    rw [← ENNReal.ofReal_mul (by apply div_nonneg <;> [norm_num; positivity])]
    refine ENNReal.ofReal_le_ofReal ?_
    refine le_trans (le_of_eq ?_) (density_close (hs x hx)).1
    ring
  · refine setLIntegral_mono' hB fun x hx => ?_
    rw [← ENNReal.ofReal_mul (by positivity)]
    refine ENNReal.ofReal_le_ofReal ?_
    refine le_trans (density_close (hs x hx)).2 (le_of_eq ?_)
    ring

end Verif.Small

import Verif.Small.Mills
import Mathlib.MeasureTheory.Function.JacobianOneDim
import Mathlib.Probability.Distributions.Gaussian.Real
import Mathlib.Analysis.Real.Pi.Bounds

/-!
# The law of `NormFloat64`
-/

namespace Verif.Small

open MeasureTheory

/-- The draws with which a pass of the inner loop ends, with a result whose absolute value is in `B`. -/
def TailSet (B : Set ℝ) : Set (ℝ × ℝ) :=
  {p | p.1 ∈ Set.Ioc (0 : ℝ) 1 ∧ p.2 ∈ Set.Ioc (0 : ℝ) 1 ∧ rnConst + -Real.log p.1 * (1 / rnConst) ∈ B ∧
    (-Real.log p.1 * (1 / rnConst)) ^ 2 ≤ -Real.log p.2 + -Real.log p.2}

theorem rn_pos : (0 : ℝ) < rnConst := by unfold rnConst; norm_num

theorem measurable_tail {B : Set ℝ} (hB : MeasurableSet B) : MeasurableSet (TailSet B) := by
  have h1 : MeasurableSet {p : ℝ × ℝ | p.1 ∈ Set.Ioc (0 : ℝ) 1} := measurable_fst measurableSet_Ioc
  have h2 : MeasurableSet {p : ℝ × ℝ | p.2 ∈ Set.Ioc (0 : ℝ) 1} := measurable_snd measurableSet_Ioc
  have hm : Measurable fun p : ℝ × ℝ => (rnConst : ℝ) + -Real.log p.1 * (1 / rnConst) := by fun_prop
  have h3 : MeasurableSet {p : ℝ × ℝ | rnConst + -Real.log p.1 * (1 / rnConst) ∈ B} := hm hB
  have h4 : MeasurableSet {p : ℝ × ℝ | (-Real.log p.1 * (1 / rnConst)) ^ 2 ≤ -Real.log p.2 + -Real.log p.2} := measurableSet_le (by fun_prop) (by fun_prop)
  exact h1.inter (h2.inter (h3.inter h4))

theorem volume_accept (x : ℝ) : volume {u : ℝ | u ∈ Set.Ioc (0 : ℝ) 1 ∧ x ^ 2 ≤ -Real.log u + -Real.log u} = ENNReal.ofReal (gauss x) := by
  have : {u : ℝ | u ∈ Set.Ioc (0 : ℝ) 1 ∧ x ^ 2 ≤ -Real.log u + -Real.log u} = Set.Ioc 0 (gauss x) := by
    ext u
    simp only [Set.mem_ofPred_eq, Set.mem_Ioc]
    constructor
    · rintro ⟨⟨h0, -⟩, h⟩
      refine ⟨h0, ?_⟩
      unfold gauss
      rw [← Real.log_le_iff_le_exp h0]
      linarith
    · rintro ⟨h0, h⟩
      refine ⟨⟨h0, h.trans (gauss_le_one x)⟩, ?_⟩
      unfold gauss at h
      rw [← Real.log_le_iff_le_exp h0] at h
      linarith
  rw [this, Real.volume_Ioc, sub_zero]

/-- A pass of the inner loop ends with the density of the normal distribution beyond the constant. -/
theorem tail_volume {B : Set ℝ} (hB : MeasurableSet B) :
    volume (TailSet B) = ENNReal.ofReal (rnConst * Real.exp (rnConst ^ 2 / 2)) * ∫⁻ x in B ∩ Set.Ici (rnConst : ℝ), ENNReal.ofReal (gauss x) := by
  have r0 := rn_pos
  obtain ⟨r, hr⟩ : ∃ r : ℝ, r = rnConst := ⟨_, rfl⟩
  have hms : Measurable fun u : ℝ => ENNReal.ofReal (gauss (-Real.log u * (1 / rnConst))) :=
    ENNReal.measurable_ofReal.comp (measurable_gauss.comp (by fun_prop))
  set A : Set ℝ := {u | u ∈ Set.Ioc (0 : ℝ) 1 ∧ rnConst + -Real.log u * (1 / rnConst) ∈ B} with hA
  have hmA : MeasurableSet A := by
    have hm : Measurable fun p : ℝ => (rnConst : ℝ) + -Real.log p * (1 / rnConst) := by fun_prop
    exact measurableSet_Ioc.inter (hm hB)
  have sec : ∀ u : ℝ, volume (Prod.mk u ⁻¹' TailSet B) = A.indicator (fun u => ENNReal.ofReal (gauss (-Real.log u * (1 / rnConst)))) u := by
    intro u
    by_cases hu : u ∈ A
    · rw [Set.indicator_of_mem hu, ← volume_accept]
      congr 1
      ext v
      simp only [TailSet, Set.mem_preimage, Set.mem_ofPred_eq, hu.1, hu.2, true_and]
    · rw [Set.indicator_of_notMem hu]
      have : Prod.mk u ⁻¹' TailSet B = ∅ := by
        ext v
        simp only [TailSet, Set.mem_preimage, Set.mem_ofPred_eq, Set.mem_empty_iff_false, iff_false]
        rintro ⟨h1, -, h2, -⟩
        exact hu ⟨h1, h2⟩
      rw [this, measure_empty]
  rw [Measure.volume_eq_prod, Measure.prod_apply (measurable_tail hB), lintegral_congr sec, lintegral_indicator hmA]
  have img : A = (fun t : ℝ => Real.exp (-rnConst * (t - rnConst))) '' (B ∩ Set.Ici (rnConst : ℝ)) := by
    ext u
    simp only [hA, Set.mem_ofPred_eq, Set.mem_image, Set.mem_inter_iff, Set.mem_Ici, Set.mem_Ioc]
    constructor
    · rintro ⟨⟨h0, h1⟩, hb⟩
      refine ⟨_, ⟨hb, ?_⟩, ?_⟩
      · have : Real.log u ≤ 0 := Real.log_nonpos h0.le h1
        have : 0 ≤ -Real.log u * (1 / rnConst) := mul_nonneg (by linarith) (by positivity)
        linarith
      · have : -(rnConst : ℝ) * (rnConst + -Real.log u * (1 / rnConst) - rnConst) = Real.log u := by field_simp; ring
        rw [this, Real.exp_log h0]
    · rintro ⟨t, ⟨hb, ht⟩, rfl⟩
      refine ⟨⟨Real.exp_pos _, ?_⟩, ?_⟩
      · rw [Real.exp_le_one_iff]
        nlinarith
      · rw [Real.log_exp]
        have : (rnConst : ℝ) + -(-rnConst * (t - rnConst)) * (1 / rnConst) = t := by field_simp; ring
        rwa [this]
  rw [img, lintegral_image_eq_lintegral_abs_deriv_mul (hB.inter measurableSet_Ici) (f' := fun t => Real.exp (-rnConst * (t - rnConst)) * -rnConst),
    ← lintegral_const_mul]
  · refine lintegral_congr fun t => ?_
    rw [← ENNReal.ofReal_mul (abs_nonneg _), ← ENNReal.ofReal_mul (by positivity), Real.log_exp]
    congr 1
    have : -(-(rnConst : ℝ) * (t - rnConst)) * (1 / rnConst) = t - rnConst := by field_simp
    rw [this, abs_mul, abs_of_pos (Real.exp_pos _), abs_neg, abs_of_pos r0]
    unfold gauss
    rw [mul_assoc, mul_comm (rnConst : ℝ), mul_assoc, mul_comm _ (rnConst : ℝ), ← mul_assoc, mul_comm _ (rnConst : ℝ), mul_assoc, ← Real.exp_add, ← Real.exp_add]
    congr 2
    ring
  · exact ENNReal.measurable_ofReal.comp measurable_gauss
  · intro t _
    have h : HasDerivAt (fun t : ℝ => -(rnConst : ℝ) * (t - rnConst)) (-rnConst) t := by
      refine (((hasDerivAt_id' t).sub_const (rnConst : ℝ)).const_mul (-(rnConst : ℝ))).congr_deriv ?_
      ring
    exact h.exp.hasDerivWithinAt
  · intro a _ b _ hab
    have := Real.exp_injective hab
    have : a - rnConst = b - (rnConst : ℝ) := mul_left_cancel₀ (neg_ne_zero.mpr r0.ne') this
    linarith

/-- The probability that a pass of the outer loop enters the inner loop with `j` positive (`pos`), or not. -/
noncomputable def tailStart (pos : Bool) : ENNReal :=
  ENNReal.ofReal (1 / 256) * volume {U : ℝ | U ∈ Set.Icc (-1 : ℝ) 1 ∧ ¬ |U * zx 0| < zk 0 ∧ (0 < U ↔ pos = true)}

/-- The probability that the inner loop ends with a result whose absolute value is in `B`: passes repeat until one ends. -/
noncomputable def tailProb (B : Set ℝ) : ENNReal := volume (TailSet B) / volume (TailSet Set.univ)

/-- The probability that a pass of the outer loop, with the inner loop, returns a number in `B`. -/
noncomputable def fullProb (B : Set ℝ) : ENNReal := passProb B + tailStart true * tailProb B + tailStart false * tailProb ((fun x => -x) ⁻¹' B)

theorem tailStart_eq (pos : Bool) : tailStart pos = ENNReal.ofReal ((1 - zk 0 / zx 0) / 256) := by
  obtain ⟨-, -, -, -, -, -, -, k3, k4, -⟩ := base_strip
  have k0 : (0 : ℝ) < zk 0 := by exact_mod_cast k3
  have kx : (zk 0 : ℝ) < zx 0 := by exact_mod_cast k4
  have x0 : (0 : ℝ) < zx 0 := k0.trans kx
  have q0 : (0 : ℝ) < zk 0 / zx 0 := by positivity
  have q1 : (zk 0 : ℝ) / zx 0 < 1 := by rw [div_lt_one x0]; exact kx
  have key : ∀ U : ℝ, |U * zx 0| < zk 0 ↔ |U| < zk 0 / zx 0 := by
    intro U
    rw [abs_mul, abs_of_pos x0, lt_div_iff₀ x0]
  unfold tailStart
  cases pos
  · have : {U : ℝ | U ∈ Set.Icc (-1 : ℝ) 1 ∧ ¬ |U * zx 0| < zk 0 ∧ (0 < U ↔ false = true)} = Set.Icc (-1 : ℝ) (-(zk 0 / zx 0)) := by
      ext U
      simp only [Set.mem_ofPred_eq, Set.mem_Icc, key, Bool.false_eq_true, iff_false, not_lt]
      constructor
      · rintro ⟨⟨h1, h2⟩, h3, h4⟩
        rw [abs_of_nonpos h4] at h3
        exact ⟨h1, by linarith⟩
      · rintro ⟨h1, h2⟩
        have h4 : U ≤ 0 := by linarith
        refine ⟨⟨h1, by linarith⟩, ?_, h4⟩
        rw [abs_of_nonpos h4]
        linarith
    rw [this, Real.volume_Icc, ← ENNReal.ofReal_mul (by norm_num)]
    congr 1
    ring
  · have : {U : ℝ | U ∈ Set.Icc (-1 : ℝ) 1 ∧ ¬ |U * zx 0| < zk 0 ∧ (0 < U ↔ true = true)} = Set.Icc (zk 0 / zx 0 : ℝ) 1 := by
      ext U
      simp only [Set.mem_ofPred_eq, Set.mem_Icc, key, iff_true, not_lt]
      constructor
      · rintro ⟨⟨h1, h2⟩, h3, h4⟩
        rw [abs_of_pos h4] at h3
        exact ⟨h3, h2⟩
      · rintro ⟨h1, h2⟩
        have h4 : 0 < U := by linarith
        refine ⟨⟨by linarith, h2⟩, ?_, h4⟩
        rw [abs_of_pos h4]
        exact h1
    rw [this, Real.volume_Icc, ← ENNReal.ofReal_mul (by norm_num)]
    congr 1
    ring

theorem tailMass_pos : 0 < tailMass := lt_of_lt_of_le (by norm_num) tailMass_bounds.1

theorem tail_lintegral : ∫⁻ x in Set.Ici (rnConst : ℝ), ENNReal.ofReal (gauss x) = ENNReal.ofReal tailMass := by
  unfold tailMass
  rw [setLIntegral_congr Ioi_ae_eq_Ici.symm, ofReal_integral_eq_lintegral_ofReal gauss_integrable.integrableOn]
  exact ae_of_all _ fun x => (gauss_pos x).le

theorem tailProb_eq {B : Set ℝ} (hB : MeasurableSet B) :
    tailProb B = (∫⁻ x in B ∩ Set.Ici (rnConst : ℝ), ENNReal.ofReal (gauss x)) / ENNReal.ofReal tailMass := by
  unfold tailProb
  have c0 : 0 < (rnConst : ℝ) * Real.exp (rnConst ^ 2 / 2) := mul_pos rn_pos (Real.exp_pos _)
  rw [tail_volume hB, tail_volume MeasurableSet.univ, Set.univ_inter, tail_lintegral]
  rw [ENNReal.mul_div_mul_left _ _ (by simpa using c0) ENNReal.ofReal_ne_top]

/-- The tail part of `fullProb`. -/
theorem tail_part {B : Set ℝ} (hB : MeasurableSet B) : tailStart true * tailProb B + tailStart false * tailProb ((fun x => -x) ⁻¹' B) =
    ENNReal.ofReal ((1 - zk 0 / zx 0) / (256 * tailMass)) * ∫⁻ x in B ∩ {x | (rnConst : ℝ) ≤ |x|}, ENNReal.ofReal (gauss x) := by
  have hn : MeasurableSet ((fun x : ℝ => -x) ⁻¹' B) := measurable_neg hB
  rw [tailStart_eq, tailStart_eq, tailProb_eq hB, tailProb_eq hn, ← mul_add, ← ENNReal.add_div]
  have hneg : ∫⁻ x in (fun x : ℝ => -x) ⁻¹' B ∩ Set.Ici (rnConst : ℝ), ENNReal.ofReal (gauss x) = ∫⁻ x in B ∩ Set.Iic (-(rnConst : ℝ)), ENNReal.ofReal (gauss x) := by
    have hm : Measurable fun x => ENNReal.ofReal (gauss x) := ENNReal.measurable_ofReal.comp measurable_gauss
    have := (Measure.measurePreserving_neg (volume : Measure ℝ)).setLIntegral_comp_preimage (hB.inter measurableSet_Iic) hm (s := B ∩ Set.Iic (-(rnConst : ℝ)))
    rw [← this]
    have hset : Neg.neg ⁻¹' (B ∩ Set.Iic (-(rnConst : ℝ))) = (fun x : ℝ => -x) ⁻¹' B ∩ Set.Ici (rnConst : ℝ) := by
      ext x
      simp
    rw [hset]
    refine lintegral_congr fun x => ?_
    unfold gauss
    rw [neg_sq]
  have hsplit : B ∩ {x | (rnConst : ℝ) ≤ |x|} = (B ∩ Set.Ici (rnConst : ℝ)) ∪ (B ∩ Set.Iic (-(rnConst : ℝ))) := by
    ext x
    simp only [Set.mem_inter_iff, Set.mem_ofPred_eq, le_abs, Set.mem_union, Set.mem_Ici, Set.mem_Iic]
    constructor
    · rintro ⟨h1, h2 | h2⟩
      · exact Or.inl ⟨h1, h2⟩
      · exact Or.inr ⟨h1, by linarith⟩
    · rintro (⟨h1, h2⟩ | ⟨h1, h2⟩)
      · exact ⟨h1, Or.inl h2⟩
      · exact ⟨h1, Or.inr (by linarith)⟩
  rw [hneg, hsplit, lintegral_union (hB.inter measurableSet_Iic)]
  · rw [ENNReal.div_eq_inv_mul, ← mul_assoc, ← ENNReal.ofReal_inv_of_pos tailMass_pos, ← ENNReal.ofReal_mul]
    · congr 2
      have := tailMass_pos.ne'
      field_simp
    · obtain ⟨-, -, -, -, -, -, -, k3, k4, -⟩ := base_strip
      have k0 : (0 : ℝ) < zk 0 := by exact_mod_cast k3
      have kx : (zk 0 : ℝ) < zx 0 := by exact_mod_cast k4
      have : (zk 0 : ℝ) / zx 0 ≤ 1 := by rw [div_le_one (k0.trans kx)]; exact kx.le
      linarith
  · rw [Set.disjoint_left]
    rintro x ⟨-, h1⟩ ⟨-, h2⟩
    have := rn_pos
    simp only [Set.mem_Ici, Set.mem_Iic] at h1 h2
    linarith

/-! ### The whole -/

/-- No strip but the base reaches beyond the constant, and the base strip is cut at its threshold. -/
theorem density_zero {x : ℝ} (hx : (zx 127 : ℝ) < |x|) : density x = 0 := by
  obtain ⟨-, -, -, -, k1, -⟩ := base_strip
  have k1' : (zk 0 : ℝ) < zx 127 := by exact_mod_cast k1
  unfold density
  refine Finset.sum_eq_zero fun i hi => ?_
  have hi := Finset.mem_range.mp hi
  rcases Nat.eq_zero_or_pos i with rfl | h
  · have : ¬ |x| < zk 0 := by linarith
    simp [hitR, this]
  · have : (zx i : ℝ) ≤ zx 127 := toR (zx_mono h (by omega) (by norm_num))
    rw [if_neg (by linarith)]

/-- The density is nowhere too large. -/
theorem density_le (x : ℝ) : density x ≤ (1 + 1 / 10 ^ 5) * (gauss x / (256 * zv)) := by
  have v0 : (0 : ℝ) < zv := by unfold zv; norm_num
  have g0 := gauss_pos x
  rcases lt_or_ge |x| (zk 0 : ℝ) with hx | hx
  · exact (density_close hx).2
  have v2 : (0 : ℝ) < 256 * (zv * (1 - 5 / 10 ^ 6)) := mul_pos (by norm_num) (mul_pos v0 (by norm_num))
  have base : density x = ∑ i ∈ Finset.range 127, (if |x| ≤ zx (i + 1) then hitR (i + 1) x else 0) / (256 * zx (i + 1)) := by
    unfold density
    rw [Finset.sum_range_succ']
    have : ¬ |x| < zk 0 := by linarith
    simp only [hitR, this, if_false, if_true, zero_div, ite_self, add_zero]
    refine Finset.sum_congr rfl fun i _ => ?_
    split <;> simp
  set T : Nat → ℝ := fun i => if |x| ≤ zx (i + 1) then hitR (i + 1) x else 0 with hT
  have terms : ∀ i ∈ Finset.range 127, T i / (256 * zx (i + 1)) ≤ T i * (zf i - zf (i + 1)) / (256 * (zv * (1 - 5 / 10 ^ 6))) := by
    intro i hi
    rw [Finset.mem_range] at hi
    have t0 : 0 ≤ T i := by
      simp only [hT]
      split
      · exact hitR_nonneg (by omega) x
      · exact le_rfl
    have S := strip (i := i + 1) (by omega) (by omega)
    have xp : (0 : ℝ) < zx (i + 1) := by exact_mod_cast S.width.1
    have b1 : (zv : ℝ) * (1 - 5 / 10 ^ 6) ≤ zx (i + 1) * (zf i - zf (i + 1)) := by have := toR S.area1; push_cast at this; exact this
    rw [div_le_div_iff₀ (by positivity) v2]
    have := mul_le_mul_of_nonneg_left b1 t0
    nlinarith
  have s2 := Finset.sum_le_sum terms
  rw [← Finset.sum_div, taken_sum x] at s2
  have exc := (abs_le.mp (excess_sum x)).2
  have f127 : (0 : ℝ) < zf 127 := by exact_mod_cast (strip (i := 127) (by norm_num) (by norm_num)).gap.1
  have m : max (gauss x - zf 127) 0 ≤ gauss x := max_le (by linarith) g0.le
  rw [base]
  refine s2.trans ?_
  rw [← mul_div_assoc, div_le_div_iff₀ v2 (by positivity)]
  have : max (gauss x - zf 127) 0 + ∑ i ∈ Finset.range 127, excess (i + 1) x ≤ gauss x * (1 + 4 / 10 ^ 7) := by linarith
  have h3 := mul_le_mul_of_nonneg_right this (by positivity : (0 : ℝ) ≤ 256 * zv)
  refine h3.trans ?_
  have : 0 < gauss x * zv := by positivity
  norm_num
  nlinarith

theorem gauss_lintegral (B : Set ℝ) : ∫⁻ x in B, ENNReal.ofReal (gauss x) = ENNReal.ofReal √(2 * Real.pi) * ProbabilityTheory.gaussianReal 0 1 B := by
  have s0 : 0 < √(2 * Real.pi) := by positivity
  rw [ProbabilityTheory.gaussianReal_apply 0 one_ne_zero, ← lintegral_const_mul _ (by fun_prop)]
  refine lintegral_congr fun x => ?_
  rw [ProbabilityTheory.gaussianPDF, ← ENNReal.ofReal_mul s0.le]
  congr 1
  simp only [ProbabilityTheory.gaussianPDFReal, gauss, NNReal.coe_one, mul_one, sub_zero]
  field_simp

/-- The share of the tail, relative to the integral over the tail. -/
theorem tail_factor : (1 - 1 / 10 ^ 5) / (256 * zv) ≤ (1 - (zk 0 : ℝ) / zx 0) / (256 * tailMass) ∧
    (1 - (zk 0 : ℝ) / zx 0) / (256 * tailMass) ≤ (1 + 1 / 10 ^ 5) / (256 * zv) := by
  have v0 : (0 : ℝ) < zv := by unfold zv; norm_num
  have t0 := tailMass_pos
  obtain ⟨h1, h2⟩ := abs_le.mp tail_share
  constructor
  · rw [div_le_div_iff₀ (by positivity) (by positivity)]
    norm_num at h1 ⊢
    nlinarith
  · rw [div_le_div_iff₀ (by positivity) (by positivity)]
    norm_num at h2 ⊢
    nlinarith

/-- Where the law is not that of the normal distribution: between the threshold of the base strip and the constant. -/
def Gap : Set ℝ := {x | (zk 0 : ℝ) ≤ |x| ∧ |x| < rnConst}

theorem fullProb_le {B : Set ℝ} (hB : MeasurableSet B) :
    fullProb B ≤ ENNReal.ofReal ((1 + 1 / 10 ^ 5) * √(2 * Real.pi) / (256 * zv)) * ProbabilityTheory.gaussianReal 0 1 B := by
  have v0 : (0 : ℝ) < zv := by unfold zv; norm_num
  have hg : Measurable fun x => ENNReal.ofReal (gauss x) := ENNReal.measurable_ofReal.comp measurable_gauss
  have hc : MeasurableSet {x : ℝ | (rnConst : ℝ) ≤ |x|} := measurableSet_le (by fun_prop) (by fun_prop)
  obtain ⟨-, -, -, -, -, k2, -⟩ := base_strip
  have k2' : (zx 127 : ℝ) < rnConst := by exact_mod_cast k2
  have c0 : (0 : ℝ) ≤ (1 + 1 / 10 ^ 5) / (256 * zv) := by positivity
  have e : (1 + 1 / 10 ^ 5) * √(2 * Real.pi) / (256 * zv) = (1 + 1 / 10 ^ 5) / (256 * zv) * √(2 * Real.pi) := by ring
  rw [e, ENNReal.ofReal_mul c0, mul_assoc, ← gauss_lintegral]
  unfold fullProb
  rw [add_assoc, tail_part hB, passProb_eq hB, ← lintegral_inter_add_sdiff (μ := volume) (fun x => ENNReal.ofReal (gauss x)) B hc, mul_add, add_comm]
  refine add_le_add (mul_le_mul_left (ENNReal.ofReal_le_ofReal tail_factor.2) _) ?_
  rw [← lintegral_inter_add_sdiff (μ := volume) (fun x => ENNReal.ofReal (density x)) B hc]
  have z : ∫⁻ x in B ∩ {x : ℝ | (rnConst : ℝ) ≤ |x|}, ENNReal.ofReal (density x) = 0 := by
    rw [setLIntegral_congr_fun (g := fun _ => 0) (hB.inter hc)]
    · simp
    · intro x hx
      simp only
      rw [density_zero (lt_of_lt_of_le k2' hx.2), ENNReal.ofReal_zero]
  rw [z, zero_add, ← lintegral_const_mul _ hg]
  refine setLIntegral_mono' (hB.diff hc) fun x hx => ?_
  rw [← ENNReal.ofReal_mul c0]
  refine ENNReal.ofReal_le_ofReal ((density_le x).trans (le_of_eq ?_))
  ring

theorem le_fullProb {B : Set ℝ} (hB : MeasurableSet B) (hgap : Disjoint B Gap) :
    ENNReal.ofReal ((1 - 1 / 10 ^ 5) * √(2 * Real.pi) / (256 * zv)) * ProbabilityTheory.gaussianReal 0 1 B ≤ fullProb B := by
  have v0 : (0 : ℝ) < zv := by unfold zv; norm_num
  have hg : Measurable fun x => ENNReal.ofReal (gauss x) := ENNReal.measurable_ofReal.comp measurable_gauss
  have hc : MeasurableSet {x : ℝ | (rnConst : ℝ) ≤ |x|} := measurableSet_le (by fun_prop) (by fun_prop)
  have c0 : (0 : ℝ) ≤ (1 - 1 / 10 ^ 5) / (256 * zv) := div_nonneg (by norm_num) (by positivity)
  have e : (1 - 1 / 10 ^ 5) * √(2 * Real.pi) / (256 * zv) = (1 - 1 / 10 ^ 5) / (256 * zv) * √(2 * Real.pi) := by ring
  rw [e, ENNReal.ofReal_mul c0, mul_assoc, ← gauss_lintegral]
  unfold fullProb
  rw [add_assoc, tail_part hB, passProb_eq hB, ← lintegral_inter_add_sdiff (μ := volume) (fun x => ENNReal.ofReal (gauss x)) B hc, mul_add, add_comm]
  refine add_le_add ?_ (mul_le_mul_left (ENNReal.ofReal_le_ofReal tail_factor.1) _)
  rw [← lintegral_const_mul _ hg]
  refine le_trans ?_ (lintegral_mono_set (Set.sdiff_subset (s := B) (t := {x : ℝ | (rnConst : ℝ) ≤ |x|})))
  refine setLIntegral_mono' (hB.diff hc) fun x hx => ?_
  rw [← ENNReal.ofReal_mul c0]
  have hk : |x| < zk 0 := by
    by_contra hn
    exact Set.disjoint_left.mp hgap hx.1 ⟨not_lt.mp hn, not_le.mp hx.2⟩
  refine ENNReal.ofReal_le_ofReal (le_trans (le_of_eq ?_) (density_close hk).1)
  ring

theorem measurable_gap : MeasurableSet Gap :=
  (measurableSet_le (f := fun _ => (zk 0 : ℝ)) (g := fun x : ℝ => |x|) (by fun_prop) (by fun_prop)).inter
    (measurableSet_lt (f := fun x : ℝ => |x|) (g := fun _ => (rnConst : ℝ)) (by fun_prop) (by fun_prop))

/-- The gap is negligible. -/
theorem gap_small : ProbabilityTheory.gaussianReal 0 1 Gap ≤ ENNReal.ofReal (3 / 10 ^ 7) := by
  obtain ⟨-, -, -, -, -, -, k, k0, -⟩ := base_strip
  have k' := toR k
  push_cast at k'
  have hv : volume Gap ≤ ENNReal.ofReal (3 / 10 ^ 7) := by
    have hs : Gap ⊆ Set.Icc (zk 0 : ℝ) rnConst ∪ Set.Icc (-(rnConst : ℝ)) (-(zk 0 : ℝ)) := by
      rintro x ⟨h1, h2⟩
      rcases le_total 0 x with h | h
      · rw [abs_of_nonneg h] at h1 h2
        exact Or.inl ⟨h1, h2.le⟩
      · rw [abs_of_nonpos h] at h1 h2
        exact Or.inr ⟨by linarith, by linarith⟩
    refine (measure_mono hs).trans ((measure_union_le _ _).trans ?_)
    have d0 : (0 : ℝ) ≤ rnConst - zk 0 := by
      obtain ⟨-, -, -, -, k1, k2, -⟩ := base_strip
      have := toR (k1.trans k2).le
      linarith
    rw [Real.volume_Icc, Real.volume_Icc, ← ENNReal.ofReal_add d0 (by linarith)]
    refine ENNReal.ofReal_le_ofReal ?_
    have : (rnConst : ℝ) ≤ 3.45 := by unfold rnConst; norm_num
    norm_num at k' this ⊢
    linarith
  have h := gauss_lintegral Gap
  have h1 : ∫⁻ x in Gap, ENNReal.ofReal (gauss x) ≤ volume Gap := by
    calc ∫⁻ x in Gap, ENNReal.ofReal (gauss x) ≤ ∫⁻ _ in Gap, 1 := by
          refine lintegral_mono fun x => ?_
          rw [ENNReal.ofReal_le_one]
          exact gauss_le_one x
      _ = volume Gap := by simp
  have s1 : (1 : ENNReal) ≤ ENNReal.ofReal √(2 * Real.pi) := by
    rw [ENNReal.one_le_ofReal]
    rw [Real.one_le_sqrt]
    have := Real.pi_gt_three
    linarith
  calc ProbabilityTheory.gaussianReal 0 1 Gap = 1 * ProbabilityTheory.gaussianReal 0 1 Gap := (one_mul _).symm
    _ ≤ ENNReal.ofReal √(2 * Real.pi) * ProbabilityTheory.gaussianReal 0 1 Gap := mul_le_mul_left s1 _
    _ ≤ ENNReal.ofReal (3 / 10 ^ 7) := by rw [← h]; exact h1.trans hv

theorem fullProb_mono {A B : Set ℝ} (h : A ⊆ B) : fullProb A ≤ fullProb B := by
  have t : ∀ {A B : Set ℝ}, A ⊆ B → tailProb A ≤ tailProb B := by
    intro A B h
    unfold tailProb
    have : TailSet A ⊆ TailSet B := fun p hp => ⟨hp.1, hp.2.1, h hp.2.2.1, hp.2.2.2⟩
    exact ENNReal.div_le_div_right (measure_mono this) _
  unfold fullProb passProb
  refine add_le_add (add_le_add ?_ (mul_le_mul_right (t h) _)) (mul_le_mul_right (t (Set.preimage_mono h)) _)
  have (i : Nat) : StripSet i A ⊆ StripSet i B := fun p hp => ⟨hp.1, hp.2.1, h hp.2.2.1, hp.2.2.2⟩
  exact Finset.sum_le_sum fun i _ => mul_le_mul_right (measure_mono (this i)) _

/-- The factor between the probabilities of a pass and of the normal distribution. -/
noncomputable def passFactor : ℝ := √(2 * Real.pi) / (256 * zv)

theorem passFactor_bounds : 0.9876 ≤ passFactor ∧ passFactor ≤ 0.988 := by
  have v0 : (0 : ℝ) < zv := by unfold zv; norm_num
  have p1 := Real.pi_gt_d4
  have p2 := Real.pi_lt_d4
  unfold passFactor
  rw [le_div_iff₀ (by positivity), div_le_iff₀ (by positivity)]
  constructor
  · refine Real.le_sqrt_of_sq_le ?_
    unfold zv
    norm_num at p1 ⊢
    linarith
  · rw [Real.sqrt_le_left (by positivity)]
    unfold zv
    norm_num at p2 ⊢
    linarith

theorem fullProb_univ : ENNReal.ofReal ((1 - 11 / 10 ^ 6) * passFactor) ≤ fullProb Set.univ ∧ fullProb Set.univ ≤ ENNReal.ofReal ((1 + 1 / 10 ^ 5) * passFactor) := by
  have f0 : 0 < passFactor := lt_of_lt_of_le (by norm_num) passFactor_bounds.1
  constructor
  · have h := le_fullProb (B := Gapᶜ) measurable_gap.compl disjoint_compl_left
    refine le_trans ?_ (h.trans (fullProb_mono (Set.subset_univ _)))
    have hc : ENNReal.ofReal (1 - 3 / 10 ^ 7) ≤ ProbabilityTheory.gaussianReal 0 1 Gapᶜ := by
      rw [prob_compl_eq_one_sub measurable_gap, ENNReal.ofReal_sub _ (by norm_num), ENNReal.ofReal_one]
      exact tsub_le_tsub_left gap_small 1
    refine le_trans ?_ (mul_le_mul_right hc _)
    have e : (1 - 1 / 10 ^ 5) * √(2 * Real.pi) / (256 * zv) = (1 - 1 / 10 ^ 5) * passFactor := by unfold passFactor; ring
    rw [e, ← ENNReal.ofReal_mul (mul_nonneg (by norm_num) f0.le)]
    refine ENNReal.ofReal_le_ofReal ?_
    norm_num
    linarith
  · have h := fullProb_le MeasurableSet.univ
    rw [measure_univ, mul_one] at h
    refine h.trans (le_of_eq ?_)
    congr 1
    unfold passFactor
    ring

/-- The law of the returned number is that of the standard normal distribution, up to 3 in 100000. -/
theorem law_close {B : Set ℝ} (hB : MeasurableSet B) :
    fullProb B ≤ ENNReal.ofReal (1 + 3 / 10 ^ 5) * ProbabilityTheory.gaussianReal 0 1 B * fullProb Set.univ ∧
    (Disjoint B Gap → ENNReal.ofReal (1 - 3 / 10 ^ 5) * ProbabilityTheory.gaussianReal 0 1 B * fullProb Set.univ ≤ fullProb B) := by
  have f0 : 0 < passFactor := lt_of_lt_of_le (by norm_num) passFactor_bounds.1
  obtain ⟨u1, u2⟩ := fullProb_univ
  constructor
  · refine (fullProb_le hB).trans ?_
    rw [mul_right_comm]
    refine mul_le_mul_left ?_ _
    refine le_trans ?_ (mul_le_mul_right u1 _)
    rw [← ENNReal.ofReal_mul (by norm_num)]
    refine ENNReal.ofReal_le_ofReal ?_
    have e : (1 + 1 / 10 ^ 5) * √(2 * Real.pi) / (256 * zv) = (1 + 1 / 10 ^ 5) * passFactor := by unfold passFactor; ring
    rw [e]
    norm_num
    nlinarith
  · intro hd
    refine le_trans ?_ (le_fullProb hB hd)
    rw [mul_right_comm]
    refine mul_le_mul_left ?_ _
    refine le_trans (mul_le_mul_right u2 _) ?_
    rw [← ENNReal.ofReal_mul (by norm_num)]
    refine ENNReal.ofReal_le_ofReal ?_
    have e : (1 - 1 / 10 ^ 5) * √(2 * Real.pi) / (256 * zv) = (1 - 1 / 10 ^ 5) * passFactor := by unfold passFactor; ring
    rw [e]
    norm_num
    nlinarith

end Verif.Small

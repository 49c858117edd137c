import Verif.Small.PassLaw
import Mathlib.Analysis.SpecialFunctions.Gaussian.GaussianIntegral
import Mathlib.MeasureTheory.Integral.IntegralEqImproper
import Mathlib.Analysis.SpecialFunctions.ExpDeriv

/-!
# The tail of the normal distribution

The convergents of the continued fraction `1 / (x + 1 / (x + 2 / (x + ...)))` bound the integral of `exp (-t²/2)` over `t > x`, divided by `exp (-x²/2)`,
from both sides.
-/

namespace Verif.Small

open MeasureTheory

/-- The denominators of the convergents. -/
def mQ {K : Type} [CommSemiring K] (x : K) : Nat → K
  | 0 => 1
  | 1 => x
  | n + 2 => x * mQ x (n + 1) + (n + 1 : Nat) * mQ x n

/-- The numerators of the convergents. -/
def mP {K : Type} [CommSemiring K] (x : K) : Nat → K
  | 0 => 0
  | 1 => 1
  | n + 2 => x * mP x (n + 1) + (n + 1 : Nat) * mP x n

theorem mQ_cast (q : ℚ) (n : Nat) : mQ (q : ℝ) n = ((mQ q n : ℚ) : ℝ) := by
  induction n using Nat.twoStepInduction with
  | zero => simp [mQ]
  | one => simp [mQ]
  | more n h1 h2 => simp only [mQ, h1, h2]; push_cast; ring

theorem mP_cast (q : ℚ) (n : Nat) : mP (q : ℝ) n = ((mP q n : ℚ) : ℝ) := by
  induction n using Nat.twoStepInduction with
  | zero => simp [mP]
  | one => simp [mP]
  | more n h1 h2 => simp only [mP, h1, h2]; push_cast; ring

theorem mQ_deriv (n : Nat) (x : ℝ) : HasDerivAt (fun x => mQ x (n + 1)) ((n + 1 : Nat) * mQ x n) x := by
  induction n using Nat.twoStepInduction with
  | zero =>
    refine (hasDerivAt_id' x).congr_deriv ?_
    simp [mQ]
  | one =>
    have := ((hasDerivAt_id' x).fun_mul (hasDerivAt_id' x)).add_const 1
    refine (this.congr_deriv ?_).congr_of_eventuallyEq (Filter.Eventually.of_forall fun y => ?_)
    · simp [mQ]; ring
    · simp [mQ]
  | more n h1 h2 =>
    have := ((hasDerivAt_id' x).fun_mul h2).fun_add (h1.const_mul ((n + 2 : Nat) : ℝ))
    refine this.congr_deriv ?_
    simp only [mQ]
    push_cast
    ring

theorem mP_deriv (n : Nat) (x : ℝ) : HasDerivAt (fun x => mP x (n + 1)) (x * mP x (n + 1) - mQ x (n + 1) + (n + 1 : Nat) * mP x n) x := by
  induction n using Nat.twoStepInduction with
  | zero =>
    refine (hasDerivAt_const x (1 : ℝ)).congr_deriv ?_
    simp [mP, mQ]
  | one =>
    refine ((hasDerivAt_id' x).congr_deriv ?_).congr_of_eventuallyEq (Filter.Eventually.of_forall fun y => ?_)
    · simp [mP, mQ]; ring
    · simp [mP]
  | more n h1 h2 =>
    have := ((hasDerivAt_id' x).fun_mul h2).fun_add (h1.const_mul ((n + 2 : Nat) : ℝ))
    refine this.congr_deriv ?_
    simp only [mP, mQ]
    push_cast
    ring

theorem casorati (n : Nat) (x : ℝ) : mP x n * mQ x (n + 1) - mP x (n + 1) * mQ x n = -(-1) ^ n * n.factorial := by
  induction n with
  | zero => simp [mP, mQ]
  | succ n ih =>
    simp only [mP, mQ, Nat.factorial_succ, pow_succ]
    push_cast at *
    linear_combination (-(n + 1 : ℝ)) * ih

theorem mQ_pos {x : ℝ} (hx : 0 < x) (n : Nat) : 0 < mQ x n := by
  induction n using Nat.twoStepInduction with
  | zero => simp [mQ]
  | one => simpa [mQ] using hx
  | more n h1 h2 => simp only [mQ]; positivity

theorem mP_le {x : ℝ} (hx : 1 ≤ x) (n : Nat) : 0 ≤ mP x n ∧ mP x n ≤ mQ x n := by
  induction n using Nat.twoStepInduction with
  | zero => simp [mP, mQ]
  | one => simpa [mP, mQ] using hx
  | more n h1 h2 =>
    simp only [mP, mQ]
    obtain ⟨a, b⟩ := h1
    obtain ⟨c, d⟩ := h2
    have : 0 ≤ x := by linarith
    constructor
    · positivity
    · gcongr

/-- The bound by the convergent number `n`. -/
noncomputable def millsG (n : Nat) (x : ℝ) : ℝ := gauss x * mP x n / mQ x n

theorem gauss_deriv (x : ℝ) : HasDerivAt gauss (-x * gauss x) x := by
  unfold gauss
  have h1 : HasDerivAt (fun x : ℝ => -x ^ 2 / 2) (-x) x := by
    refine (((hasDerivAt_pow 2 x).fun_neg).div_const 2).congr_deriv ?_
    push_cast
    ring
  refine h1.exp.congr_deriv ?_
  ring

theorem millsG_deriv (n : Nat) {x : ℝ} (hx : 0 < x) :
    HasDerivAt (millsG (n + 1)) (-gauss x * (1 + (-1) ^ n * (n + 1).factorial / mQ x (n + 1) ^ 2)) x := by
  have q := (mQ_pos hx (n + 1)).ne'
  have h := ((gauss_deriv x).fun_mul (mP_deriv n x)).fun_div (mQ_deriv n x) q
  have hc := casorati n x
  unfold millsG
  refine h.congr_deriv ?_
  rw [Nat.factorial_succ]
  push_cast at *
  field_simp
  linear_combination (gauss x * (n + 1)) * hc

theorem gauss_integrable : Integrable gauss := by
  have := integrable_exp_neg_mul_sq (b := 1 / 2) (by norm_num)
  refine this.congr (Filter.Eventually.of_forall fun x => ?_)
  unfold gauss
  simp only
  congr 1
  ring

theorem gauss_tendsto : Filter.Tendsto gauss Filter.atTop (nhds 0) := by
  unfold gauss
  refine Real.tendsto_exp_atBot.comp ?_
  have : Filter.Tendsto (fun x : ℝ => x ^ 2) Filter.atTop Filter.atTop := Filter.tendsto_pow_atTop (by norm_num)
  have := Filter.tendsto_neg_atTop_atBot.comp (this.atTop_div_const (r := 2) (by norm_num))
  refine this.congr fun x => ?_
  simp only [Function.comp]
  ring

theorem millsG_tendsto (n : Nat) : Filter.Tendsto (millsG n) Filter.atTop (nhds 0) := by
  refine squeeze_zero' ?_ ?_ gauss_tendsto
  · filter_upwards [Filter.eventually_ge_atTop 1] with x hx
    have := mP_le hx n
    have := mQ_pos (by linarith : 0 < x) n
    have := gauss_pos x
    unfold millsG
    obtain ⟨h, -⟩ := mP_le hx n
    positivity
  · filter_upwards [Filter.eventually_ge_atTop 1] with x hx
    obtain ⟨h1, h2⟩ := mP_le hx n
    have q := mQ_pos (by linarith : 0 < x) n
    have g := gauss_pos x
    unfold millsG
    rw [div_le_iff₀ q]
    gcongr

theorem millsG_diff (n : Nat) {a b : ℝ} (ha : 0 < a) (hab : a ≤ b) :
    ∫ x in a..b, gauss x * (1 + (-1) ^ n * (n + 1).factorial / mQ x (n + 1) ^ 2) = millsG (n + 1) a - millsG (n + 1) b := by
  have hpos : ∀ x ∈ Set.uIcc a b, 0 < x := fun x hx => by
    rw [Set.uIcc_of_le hab] at hx
    exact lt_of_lt_of_le ha hx.1
  have hc : ContinuousOn (fun x => -gauss x * (1 + (-1) ^ n * (n + 1).factorial / mQ x (n + 1) ^ 2)) (Set.uIcc a b) := by
    have hQ : Continuous fun x : ℝ => mQ x (n + 1) := continuous_iff_continuousAt.mpr fun x => (mQ_deriv n x).continuousAt
    have hg : Continuous gauss := continuous_iff_continuousAt.mpr fun x => (gauss_deriv x).continuousAt
    refine (hg.neg.continuousOn).mul (continuousOn_const.add (continuousOn_const.div (hQ.pow 2).continuousOn ?_))
    intro x hx
    exact pow_ne_zero _ (mQ_pos (hpos x hx) _).ne'
  have := intervalIntegral.integral_eq_sub_of_hasDerivAt (f := millsG (n + 1)) (fun x hx => millsG_deriv n (hpos x hx)) (hc.intervalIntegrable)
  have e : ∀ x, gauss x * (1 + (-1) ^ n * (n + 1).factorial / mQ x (n + 1) ^ 2) = -(-gauss x * (1 + (-1) ^ n * (n + 1).factorial / mQ x (n + 1) ^ 2)) := fun x => by ring
  simp only [e]
  rw [intervalIntegral.integral_neg, this]
  ring

/-- Odd convergents are upper bounds. -/
theorem tail_le {n : Nat} (hn : Even n) {a : ℝ} (ha : 0 < a) : ∫ x in Set.Ioi a, gauss x ≤ millsG (n + 1) a := by
  have t1 := intervalIntegral_tendsto_integral_Ioi a gauss_integrable.integrableOn Filter.tendsto_id
  have t2 : Filter.Tendsto (fun b => millsG (n + 1) a - millsG (n + 1) b) Filter.atTop (nhds (millsG (n + 1) a)) := by
    simpa using (tendsto_const_nhds (x := millsG (n + 1) a)).sub (millsG_tendsto (n + 1))
  refine le_of_tendsto_of_tendsto t1 t2 ?_
  filter_upwards [Filter.eventually_ge_atTop a] with b hb
  rw [← millsG_diff n ha hb]
  simp only [id]
  refine intervalIntegral.integral_mono_on hb gauss_integrable.intervalIntegrable ?_ ?_
  · refine ContinuousOn.intervalIntegrable ?_
    have hQ : Continuous fun x : ℝ => mQ x (n + 1) := continuous_iff_continuousAt.mpr fun x => (mQ_deriv n x).continuousAt
    have hg : Continuous gauss := continuous_iff_continuousAt.mpr fun x => (gauss_deriv x).continuousAt
    refine hg.continuousOn.mul (continuousOn_const.add (continuousOn_const.div (hQ.pow 2).continuousOn ?_))
    intro x hx
    rw [Set.uIcc_of_le hb] at hx
    exact pow_ne_zero _ (mQ_pos (lt_of_lt_of_le ha hx.1) _).ne'
  · intro x hx
    have g := gauss_pos x
    have q := mQ_pos (lt_of_lt_of_le ha hx.1) (n + 1)
    rw [hn.neg_one_pow]
    have : 0 ≤ 1 * ((n + 1).factorial : ℝ) / mQ x (n + 1) ^ 2 := by positivity
    nlinarith

/-- Even convergents are lower bounds. -/
theorem le_tail {n : Nat} (hn : Odd n) {a : ℝ} (ha : 0 < a) : millsG (n + 1) a ≤ ∫ x in Set.Ioi a, gauss x := by
  have t1 := intervalIntegral_tendsto_integral_Ioi a gauss_integrable.integrableOn Filter.tendsto_id
  have t2 : Filter.Tendsto (fun b => millsG (n + 1) a - millsG (n + 1) b) Filter.atTop (nhds (millsG (n + 1) a)) := by
    simpa using (tendsto_const_nhds (x := millsG (n + 1) a)).sub (millsG_tendsto (n + 1))
  refine le_of_tendsto_of_tendsto t2 t1 ?_
  filter_upwards [Filter.eventually_ge_atTop a] with b hb
  rw [← millsG_diff n ha hb]
  simp only [id]
  refine intervalIntegral.integral_mono_on hb ?_ gauss_integrable.intervalIntegrable ?_
  · refine ContinuousOn.intervalIntegrable ?_
    have hQ : Continuous fun x : ℝ => mQ x (n + 1) := continuous_iff_continuousAt.mpr fun x => (mQ_deriv n x).continuousAt
    have hg : Continuous gauss := continuous_iff_continuousAt.mpr fun x => (gauss_deriv x).continuousAt
    refine hg.continuousOn.mul (continuousOn_const.add (continuousOn_const.div (hQ.pow 2).continuousOn ?_))
    intro x hx
    rw [Set.uIcc_of_le hb] at hx
    exact pow_ne_zero _ (mQ_pos (lt_of_lt_of_le ha hx.1) _).ne'
  · intro x hx
    have g := gauss_pos x
    have q := mQ_pos (lt_of_lt_of_le ha hx.1) (n + 1)
    rw [hn.neg_one_pow]
    have : 0 ≤ ((n + 1).factorial : ℝ) / mQ x (n + 1) ^ 2 := by positivity
    have e : -1 * ((n + 1).factorial : ℝ) / mQ x (n + 1) ^ 2 = -(((n + 1).factorial : ℝ) / mQ x (n + 1) ^ 2) := by ring
    rw [e]
    nlinarith

/-- The integral over the tail. -/
noncomputable def tailMass : ℝ := ∫ x in Set.Ioi (rnConst : ℝ), gauss x

/-- Rational bounds of the tail. -/
theorem tailMass_bounds : (0.00072204 : ℝ) ≤ tailMass ∧ (((expLo (rnConst ^ 2 / 2) * mP rnConst 10 / mQ rnConst 10 : ℚ) : ℝ) ≤ tailMass) ∧
    tailMass ≤ ((expHi (rnConst ^ 2 / 2) * mP rnConst 11 / mQ rnConst 11 : ℚ) : ℝ) := by
  have r0 : (0 : ℝ) < (rnConst : ℚ) := by unfold rnConst; norm_num
  have lo := le_tail (n := 9) (by decide) r0
  have hi := tail_le (n := 10) (by decide) r0
  have g1 : ((expLo (rnConst ^ 2 / 2) : ℚ) : ℝ) ≤ gauss (rnConst : ℚ) := gauss_lo (by unfold rnConst; norm_num [abs_of_pos]) le_rfl
  have g2 : gauss (rnConst : ℚ) ≤ ((expHi (rnConst ^ 2 / 2) : ℚ) : ℝ) := gauss_hi (by unfold rnConst; norm_num [abs_of_pos]) le_rfl
  have q : ∀ n, (0 : ℝ) < mQ (rnConst : ℝ) n := mQ_pos r0
  have p : ∀ n, (0 : ℝ) ≤ mP (rnConst : ℝ) n := fun n => (mP_le (by unfold rnConst; norm_num) n).1
  have b1 : ((expLo (rnConst ^ 2 / 2) * mP rnConst 10 / mQ rnConst 10 : ℚ) : ℝ) ≤ tailMass := by
    refine le_trans ?_ lo
    unfold millsG
    push_cast
    rw [← mQ_cast, ← mP_cast]
    have := q 10
    have := p 10
    gcongr
  have b2 : tailMass ≤ ((expHi (rnConst ^ 2 / 2) * mP rnConst 11 / mQ rnConst 11 : ℚ) : ℝ) := by
    refine le_trans hi ?_
    unfold millsG
    push_cast
    rw [← mQ_cast, ← mP_cast]
    have := q 11
    have := p 11
    gcongr
  refine ⟨?_, b1, b2⟩
  have c : (0.00072204 : ℚ) ≤ expLo (rnConst ^ 2 / 2) * mP rnConst 10 / mQ rnConst 10 := by decide +kernel
  have c' := toR c
  refine le_trans ?_ (c'.trans b1)
  norm_num

theorem tail_rat : ((1 - zk 0 / zx 0) * zv - expHi (rnConst ^ 2 / 2) * mP rnConst 11 / mQ rnConst 11) ≥ - (1 / 10 ^ 6) * 0.00072204 ∧
    ((1 - zk 0 / zx 0) * zv - expLo (rnConst ^ 2 / 2) * mP rnConst 10 / mQ rnConst 10) ≤ 1 / 10 ^ 6 * 0.00072204 := by decide +kernel

/-- The probability with which the base strip goes to the tail is that of the tail, up to 1 in a million. -/
theorem tail_share : |(1 - (zk 0 : ℝ) / zx 0) * zv - tailMass| ≤ 1 / 10 ^ 6 * tailMass := by
  obtain ⟨h0, h1, h2⟩ := tailMass_bounds
  obtain ⟨c1, c2⟩ := tail_rat
  have d1 := toR c1
  have d2 := toR c2
  push_cast at d1 d2 h1 h2
  rw [abs_le]
  norm_num at d1 d2 h0 ⊢
  constructor <;> linarith

end Verif.Small

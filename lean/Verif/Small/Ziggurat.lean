import Verif.Small.Normal
import Mathlib.Analysis.Complex.Exponential
import Mathlib.Tactic.Linarith
import Mathlib.Tactic.Positivity
import Mathlib.Tactic.NormNum
import Mathlib.Tactic.GCongr
import Mathlib.Tactic.IntervalCases

/-!
# The tables of `NormFloat64`

The tables are compared with the exponential function by rational bounds that the kernel evaluates.
-/

namespace Verif.Small

open Verif.Float

/-- The Taylor polynomial of degree 7 of the exponential function. -/
def expPoly (z : ℚ) : ℚ := 1 + z + z ^ 2 / 2 + z ^ 3 / 6 + z ^ 4 / 24 + z ^ 5 / 120 + z ^ 6 / 720 + z ^ 7 / 5040

/-- Its error for arguments of absolute value at most 1. -/
def expErr (z : ℚ) : ℚ := |z| ^ 8 * (9 / 322560)

/-- A lower bound for `exp (-t)`. -/
def expLo (t : ℚ) : ℚ := (expPoly (-t / 64) - expErr (-t / 64)) ^ 64

/-- An upper bound for `exp (-t)`. -/
def expHi (t : ℚ) : ℚ := (expPoly (-t / 64) + expErr (-t / 64)) ^ 64

theorem exp_poly {z : ℚ} (hz : |z| ≤ 1) : |Real.exp z - (expPoly z : ℚ)| ≤ (expErr z : ℚ) := by
  have h := Real.exp_bound (x := (z : ℝ)) (by exact_mod_cast hz) (n := 8) (by norm_num)
  unfold expPoly expErr
  push_cast
  convert h using 1
  · simp [Finset.sum_range_succ, Nat.factorial]
  · simp [Nat.factorial]
    norm_num

theorem exp_pow (t : ℚ) : Real.exp (-(t : ℝ)) = Real.exp ((-t / 64 : ℚ) : ℝ) ^ 64 := by
  rw [← Real.exp_nat_mul]
  congr 1
  push_cast
  ring

theorem expLo_le {t : ℚ} (t0 : 0 ≤ t) (t1 : t ≤ 8) : ((expLo t : ℚ) : ℝ) ≤ Real.exp (-(t : ℝ)) := by
  have hz : |-t / 64| ≤ 1 := by rw [abs_le]; constructor <;> linarith
  have h := abs_le.mp (exp_poly hz)
  have hp : 0 ≤ expPoly (-t / 64) - expErr (-t / 64) := by
    obtain ⟨z, hz'⟩ : ∃ z, z = t / 64 := ⟨_, rfl⟩
    have z0 : 0 ≤ z := by rw [hz']; positivity
    have z1 : z ≤ 1 / 8 := by rw [hz']; linarith
    have e : -t / 64 = -z := by rw [hz']; ring
    rw [e]
    unfold expPoly expErr
    rw [abs_neg, abs_of_nonneg z0]
    have p : ∀ n : Nat, z ^ (n + 1) ≤ 1 / 8 := fun n => by
      calc z ^ (n + 1) ≤ (1 / 8) ^ (n + 1) := by gcongr
        _ ≤ 1 / 8 := by
          rw [pow_succ]
          have : (1 / 8 : ℚ) ^ n ≤ 1 := pow_le_one₀ (by norm_num) (by norm_num)
          linarith
    have q : ∀ n : Nat, 0 ≤ z ^ n := fun n => by positivity
    have := p 2; have := p 4; have := p 6; have := p 7
    have := q 2; have := q 4; have := q 6
    ring_nf at *
    linarith
  rw [exp_pow]
  unfold expLo
  push_cast
  have hp' : (0 : ℝ) ≤ ((expPoly (-t / 64) - expErr (-t / 64) : ℚ) : ℝ) := by exact_mod_cast hp
  push_cast at hp' h
  gcongr
  linarith [h.1]

theorem le_expHi {t : ℚ} (t0 : 0 ≤ t) (t1 : t ≤ 8) : Real.exp (-(t : ℝ)) ≤ ((expHi t : ℚ) : ℝ) := by
  have hz : |-t / 64| ≤ 1 := by rw [abs_le]; constructor <;> linarith
  have h := abs_le.mp (exp_poly hz)
  rw [exp_pow]
  unfold expHi
  push_cast
  push_cast at h
  gcongr
  linarith [h.2]

/-- The right end of strip `i`: `2^31 wn[i]`. -/
def zx (i : Nat) : ℚ := 2 ^ 31 * rne 24 (wnTable.getD i 0)

/-- The height of strip `i`. -/
def zf (i : Nat) : ℚ := rne 24 (fnTable.getD i 0)

/-- The threshold of strip `i`: `kn[i] wn[i]`. -/
def zk (i : Nat) : ℚ := knTable.getD i 0 * rne 24 (wnTable.getD i 0)

/-- The area of a strip. -/
def zv : ℚ := 0.00991256303526217

theorem lengths : knTable.length = 128 ∧ wnTable.length = 128 ∧ fnTable.length = 128 := by decide +kernel

/-- The strip `i` is as it should be, up to 3 in 10 million for the heights and 5 in a million for the area. -/
structure Strip (i : Nat) : Prop where
  height1 : zf i * (1 - 3 / 10 ^ 7) ≤ expLo (zx i ^ 2 / 2)
  height2 : expHi (zx i ^ 2 / 2) ≤ zf i * (1 + 3 / 10 ^ 7)
  thresh1 : zf (i - 1) * (1 - 3 / 10 ^ 7) ≤ expLo (zk i ^ 2 / 2)
  thresh2 : expHi (zk i ^ 2 / 2) ≤ zf (i - 1) * (1 + 3 / 10 ^ 7)
  area1 : zv * (1 - 5 / 10 ^ 6) ≤ zx i * (zf (i - 1) - zf i)
  area2 : zx i * (zf (i - 1) - zf i) ≤ zv * (1 + 5 / 10 ^ 6)
  width : 0 < zx i ∧ zx i ≤ 7 / 2
  thresh : 0 ≤ zk i ∧ zk i ≤ zx i
  gap : 0 < zf i ∧ zf i * (1 + 1 / 1000) ≤ zf (i - 1)
  wider : 1 < i → zx (i - 1) < zx i

def stripOK (i : Nat) : Bool := decide (zf i * (1 - 3 / 10 ^ 7) ≤ expLo (zx i ^ 2 / 2) ∧ expHi (zx i ^ 2 / 2) ≤ zf i * (1 + 3 / 10 ^ 7) ∧
  zf (i - 1) * (1 - 3 / 10 ^ 7) ≤ expLo (zk i ^ 2 / 2) ∧ expHi (zk i ^ 2 / 2) ≤ zf (i - 1) * (1 + 3 / 10 ^ 7) ∧
  zv * (1 - 5 / 10 ^ 6) ≤ zx i * (zf (i - 1) - zf i) ∧ zx i * (zf (i - 1) - zf i) ≤ zv * (1 + 5 / 10 ^ 6) ∧
  (0 < zx i ∧ zx i ≤ 7 / 2) ∧ (0 ≤ zk i ∧ zk i ≤ zx i) ∧ (0 < zf i ∧ zf i * (1 + 1 / 1000) ≤ zf (i - 1)) ∧ (1 < i → zx (i - 1) < zx i))

theorem strips_ok : ((List.range 128).drop 1).all stripOK = true := by decide +kernel

theorem strip {i : Nat} (h1 : 1 ≤ i) (h2 : i < 128) : Strip i := by
  have hm : i ∈ (List.range 128).drop 1 := by
    rw [List.mem_iff_getElem]
    exact ⟨i - 1, by simp; omega, by simp; omega⟩
  have := List.all_eq_true.mp strips_ok i hm
  unfold stripOK at this
  rw [decide_eq_true_eq] at this
  obtain ⟨a1, a2, a3, a4, a5, a6, a7, a8, a9, a10⟩ := this
  exact ⟨a1, a2, a3, a4, a5, a6, a7, a8, a9, a10⟩

/-- The first height is 1, the first threshold is 0, and the base strip: its area, and its threshold just below the constant and the end of the last strip. -/
theorem base_strip : zf 0 = 1 ∧ zk 1 = 0 ∧ zv * (1 - 1 / 10 ^ 8) ≤ zx 0 * zf 127 ∧ zx 0 * zf 127 ≤ zv * (1 + 1 / 10 ^ 8) ∧
    zk 0 < zx 127 ∧ zx 127 < rnConst ∧ rnConst * (1 - 4 / 10 ^ 8) ≤ zk 0 ∧ 0 < zk 0 ∧ zk 0 < zx 0 ∧ zf 127 * (1 - 3 / 10 ^ 7) ≤ expLo (zk 0 ^ 2 / 2) ∧ zx 0 ≤ 4 := by
  decide +kernel

theorem zx_mono {i k : Nat} (h1 : 1 ≤ i) (h2 : i ≤ k) (h3 : k < 128) : zx i ≤ zx k := by
  induction k, h2 using Nat.le_induction with
  | base => exact le_rfl
  | succ k hk ih => exact (ih (by omega)).trans ((strip (by omega) h3).wider (by omega)).le

theorem zf_gap {i k : Nat} (h2 : i < k) (h3 : k < 128) : zf k * (1 + 1 / 1000) ≤ zf i := by
  induction k, h2 using Nat.le_induction with
  | base => exact (strip (by omega) h3).gap.2
  | succ k hk ih =>
    have := (strip (i := k + 1) (by omega) h3).gap
    have := (strip (i := k) (by omega) (by omega)).gap
    have := ih (by omega)
    simp only [Nat.add_sub_cancel] at *
    linarith

end Verif.Small

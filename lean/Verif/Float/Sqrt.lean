import Verif.Float.Round
import Mathlib.Data.Nat.Sqrt
import Mathlib.Algebra.Order.Field.Power
import Mathlib.Algebra.Order.Floor.Semiring

/-!
# Correctly rounded square root
-/

namespace Verif.Float

/-- `math.Sqrt` on float64: the square root to at least 60 bits with a sticky bit, then rounded to
53 bits. -/
def sqrt64 (x : ℚ) : ℚ :=
  if x ≤ 0 then 0
  else
    let k : ℤ := 60 - Int.log 2 x / 2
    let X : ℚ := x * (4 : ℚ) ^ k
    let s : ℕ := Nat.sqrt ⌊X⌋₊
    let y : ℚ := if (s : ℚ) ^ 2 = X then s else s + 1 / 2
    rne 53 (y / (2 : ℚ) ^ k)

theorem sqrt64_ok : SqrtOK sqrt64 := by
  constructor
  · intro x
    unfold sqrt64
    split
    · exact le_refl _
    · simp only
      apply rne_nonneg (by norm_num)
      split <;> positivity
  · intro x hx
    rcases hx.eq_or_lt with rfl | hpos
    · unfold sqrt64; simp
    unfold sqrt64
    rw [if_neg (not_le.mpr hpos)]
    simp only
    set k : ℤ := 60 - Int.log 2 x / 2 with hk
    set X : ℚ := x * (4 : ℚ) ^ k with hX
    set s : ℕ := Nat.sqrt ⌊X⌋₊ with hs
    set y : ℚ := if (s : ℚ) ^ 2 = X then (s : ℚ) else s + 1 / 2 with hy
    have h4 : (4 : ℚ) ^ k = ((2 : ℚ) ^ k) ^ 2 := by
      rw [show (4 : ℚ) = 2 * 2 by norm_num, mul_zpow]; ring
    have h2k : (0 : ℚ) < (2 : ℚ) ^ k := zpow_pos (by norm_num) _
    have hXpos : 0 < X := by rw [hX, h4]; positivity
    have hXbig : (2 : ℚ) ^ 120 ≤ X := by
      have h1 := (log_bounds hpos).1
      rw [hX]
      have : (4 : ℚ) ^ k = (2 : ℚ) ^ (2 * k) := by
        rw [zpow_mul]; norm_num
      rw [this]
      calc (2 : ℚ) ^ 120 = (2 : ℚ) ^ (120 : ℤ) := by norm_num
        _ ≤ (2 : ℚ) ^ (Int.log 2 x + 2 * k) := zpow_le_zpow_right₀ (by norm_num) (by omega)
        _ = (2 : ℚ) ^ Int.log 2 x * (2 : ℚ) ^ (2 * k) := zpow_add₀ (by norm_num) _ _
        _ ≤ x * (2 : ℚ) ^ (2 * k) := by gcongr
    have hs1 : (s : ℚ) ^ 2 ≤ X := by
      have h1 : s * s ≤ ⌊X⌋₊ := Nat.sqrt_le _
      have h2 : ((⌊X⌋₊ : ℕ) : ℚ) ≤ X := Nat.floor_le hXpos.le
      have h3 : ((s * s : ℕ) : ℚ) ≤ ((⌊X⌋₊ : ℕ) : ℚ) := by exact_mod_cast h1
      push_cast at h3
      nlinarith
    have hs2 : X < ((s : ℚ) + 1) ^ 2 := by
      have h1 : ⌊X⌋₊ < (s + 1) * (s + 1) := Nat.lt_succ_sqrt _
      have h2 := Nat.lt_floor_add_one X
      have h3 : ((⌊X⌋₊ : ℕ) : ℚ) + 1 ≤ (((s + 1) * (s + 1) : ℕ) : ℚ) := by exact_mod_cast h1
      push_cast at h3
      nlinarith
    have hsbig : (2 : ℚ) ^ 59 ≤ s := by
      by_contra hn
      have hn := not_le.mp hn
      have : ((s : ℚ) + 1) ^ 2 ≤ (2 ^ 59 + 1) ^ 2 := by gcongr
      norm_num at *
      linarith
    -- the intermediate value
    have hy1 : X * (1 - 1 / 2 ^ 55) ≤ y ^ 2 ∧ y ^ 2 ≤ X * (1 + 1 / 2 ^ 55) ∧ 0 ≤ y := by
      rw [hy]
      split
      · rename_i he
        rw [he]
        refine ⟨by nlinarith, by nlinarith, by positivity⟩
      · refine ⟨?_, ?_, by positivity⟩
        · nlinarith
        · nlinarith
    obtain ⟨y1, y2, y0⟩ := hy1
    set z := y / (2 : ℚ) ^ k with hz
    have z0 : 0 ≤ z := by positivity
    have hzz : z ^ 2 = y ^ 2 / (4 : ℚ) ^ k := by rw [hz, div_pow, h4]
    have h4p : (0 : ℚ) < (4 : ℚ) ^ k := by rw [h4]; positivity
    have z1 : x * (1 - 1 / 2 ^ 55) ≤ z ^ 2 := by
      rw [hzz, le_div_iff₀ h4p]
      calc x * (1 - 1 / 2 ^ 55) * 4 ^ k = X * (1 - 1 / 2 ^ 55) := by rw [hX]; ring
        _ ≤ y ^ 2 := y1
    have z2 : z ^ 2 ≤ x * (1 + 1 / 2 ^ 55) := by
      rw [hzz, div_le_iff₀ h4p]
      calc y ^ 2 ≤ X * (1 + 1 / 2 ^ 55) := y2
        _ = x * (1 + 1 / 2 ^ 55) * 4 ^ k := by rw [hX]; ring
    have R := rne_rnd (p := 53) (by norm_num)
    have r1 := R.lo z0
    have r2 := R.hi z0
    have r0 := R.nonneg z0
    set r := rne 53 z
    constructor
    · calc x * (1 - 1 / 2 ^ 51) ≤ x * (1 - 1 / 2 ^ 55) * (1 - 1 / 2 ^ 53) ^ 2 := by nlinarith
        _ ≤ z ^ 2 * (1 - 1 / 2 ^ 53) ^ 2 := by gcongr
        _ = (z * (1 - 1 / 2 ^ 53)) ^ 2 := by ring
        _ ≤ r ^ 2 := by
          apply pow_le_pow_left₀ _ r1
          apply mul_nonneg z0; norm_num
    · calc r ^ 2 ≤ (z * (1 + 1 / 2 ^ 53)) ^ 2 := by gcongr
        _ = z ^ 2 * (1 + 1 / 2 ^ 53) ^ 2 := by ring
        _ ≤ x * (1 + 1 / 2 ^ 55) * (1 + 1 / 2 ^ 53) ^ 2 := by gcongr
        _ ≤ x * (1 + 1 / 2 ^ 51) := by nlinarith

-- Evaluation tests of the two functions.
example : sqrt64 2 = 6369051672525773 / 4503599627370496 := by decide +kernel
example : rne 24 (1 / 10) = 13421773 / 134217728 := by decide +kernel

end Verif.Float

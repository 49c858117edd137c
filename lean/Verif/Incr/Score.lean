import Verif.Incr.Remove
import Verif.Float.Round

/-!
# Rounded ear scores keep their order up to a small relative error

delaunay.go compares `float64(inCircle)/float64(orientation)`.  Up to 4096 pixels the integers are
exact floats (`incMax 4096 < 2^53`, or multiples of 4 below `2^55`), so that only the division is rounded.
-/

namespace Verif.Incr

open Verif.Float

theorem faithful_rnd {fl : ℚ → ℚ} (R : Rnd 53 fl) {n : Nat} (hn : n ≤ 4096) : Faithful fl n := by
  refine ⟨?_, R.mono, ?_⟩
  · intro i z h
    have b4 : (n : Int) ^ 4 ≤ 4096 ^ 4 := pow_le_pow_left₀ (by positivity) (by exact_mod_cast hn) 4
    have b3 : (n : Int) ^ 3 ≤ 4096 ^ 3 := pow_le_pow_left₀ (by positivity) (by exact_mod_cast hn) 3
    unfold incMax at h
    norm_num at b4 b3
    rcases h with h | ⟨⟨j, rfl⟩, h⟩
    · exact R.int (by rw [abs_of_nonneg z]; norm_num; linarith)
    · refine R.fix _ ⟨j, 2, ?_, by push_cast; norm_num; ring⟩
      rw [abs_of_nonneg (by omega)]; norm_num; linarith
  · intro n1 x y hx hy hle
    have e1 := (abs_le.mp (R.err x)).1
    have e2 := (abs_le.mp (R.err y)).2
    rw [abs_of_nonneg hx] at e1
    rw [abs_of_nonneg hy] at e2
    have small : (1 : ℚ) / 2 ^ 52 ≤ earErr n := by
      unfold earErr
      have q0 : (1 : ℚ) ≤ n := by exact_mod_cast n1
      have q4 : (n : ℚ) ^ 4 ≤ 4096 ^ 4 := pow_le_pow_left₀ (by linarith) (by exact_mod_cast hn) 4
      have q3 : (n : ℚ) ^ 3 ≤ 4096 ^ 3 := pow_le_pow_left₀ (by linarith) (by exact_mod_cast hn) 3
      apply one_div_le_one_div_of_le (by positivity)
      norm_num at q4 q3 ⊢
      linarith
    have m := mul_le_mul_of_nonneg_right small hx
    have key : (1 - 1 / 2 ^ 52) * x ≤ y := by
      norm_num at e1 e2 ⊢
      linarith
    linarith

end Verif.Incr

import Mathlib.Tactic.Linarith
import Mathlib.Tactic.Ring
import Mathlib.Algebra.Order.Ring.Abs

/-!
# Areas of triangles in a box
-/

namespace Verif.Incr

/-- The doubled area of a triangle in a box. -/
theorem area_box {x1 x2 y1 y2 ax ay bx b_y cx cy : ℤ} (a1 : x1 ≤ ax) (a2 : ax ≤ x2) (a3 : y1 ≤ ay) (a4 : ay ≤ y2)
    (b1 : x1 ≤ bx) (b2 : bx ≤ x2) (b3 : y1 ≤ b_y) (b4 : b_y ≤ y2) (c1 : x1 ≤ cx) (c2 : cx ≤ x2) (c3 : y1 ≤ cy) (c4 : cy ≤ y2) :
    |(bx - ax) * (cy - ay) - (b_y - ay) * (cx - ax)| ≤ (x2 - x1) * (y2 - y1) := by
  have key : ∀ u v w p q : ℤ, x1 ≤ u → u ≤ x2 → x1 ≤ v → v ≤ x2 → x1 ≤ w → w ≤ x2 → 0 ≤ p → 0 ≤ q → p + q ≤ y2 - y1 →
      |p * (u - w) + q * (v - w)| ≤ (x2 - x1) * (y2 - y1) := by
    intro u v w p q u1 u2 v1 v2 w1 w2 p0 q0 pq
    have e1 : |p * (u - w)| ≤ p * (x2 - x1) := by
      rw [abs_mul, abs_of_nonneg p0]
      exact mul_le_mul_of_nonneg_left (abs_le.mpr ⟨by omega, by omega⟩) p0
    have e2 : |q * (v - w)| ≤ q * (x2 - x1) := by
      rw [abs_mul, abs_of_nonneg q0]
      exact mul_le_mul_of_nonneg_left (abs_le.mpr ⟨by omega, by omega⟩) q0
    calc _ ≤ |p * (u - w)| + |q * (v - w)| := abs_add_le _ _
      _ ≤ (p + q) * (x2 - x1) := by linarith
      _ ≤ (y2 - y1) * (x2 - x1) := mul_le_mul_of_nonneg_right pq (by omega)
      _ = _ := by ring
  rcases le_total ay b_y with h1 | h1 <;> rcases le_total b_y cy with h2 | h2 <;> rcases le_total ay cy with h3 | h3
  · have := key ax cx bx (cy - b_y) (b_y - ay) a1 a2 c1 c2 b1 b2 (by omega) (by omega) (by omega)
    rw [← abs_neg]; convert this using 2; ring
  · have e1 : ay = b_y := by omega
    have e2 : b_y = cy := by omega
    subst e1; subst e2; simp
    exact mul_nonneg (by omega) (by omega)
  · have := key ax bx cx (b_y - cy) (cy - ay) a1 a2 b1 b2 c1 c2 (by omega) (by omega) (by omega)
    convert this using 2; ring
  · have := key cx bx ax (b_y - ay) (ay - cy) c1 c2 b1 b2 a1 a2 (by omega) (by omega) (by omega)
    rw [← abs_neg]; convert this using 2; ring
  · have := key bx cx ax (cy - ay) (ay - b_y) b1 b2 c1 c2 a1 a2 (by omega) (by omega) (by omega)
    convert this using 2; ring
  · have := key bx ax cx (ay - cy) (cy - b_y) b1 b2 a1 a2 c1 c2 (by omega) (by omega) (by omega)
    rw [← abs_neg]; convert this using 2; ring
  · have e1 : ay = b_y := by omega
    have e2 : b_y = cy := by omega
    subst e1; subst e2; simp
    exact mul_nonneg (by omega) (by omega)
  · have := key ax cx bx (b_y - cy) (ay - b_y) a1 a2 c1 c2 b1 b2 (by omega) (by omega) (by omega)
    convert this using 2; ring

end Verif.Incr

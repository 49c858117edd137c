import Mathlib.Tactic.Ring
import Mathlib.Tactic.Linarith
import Mathlib.Tactic.LinearCombination
import Mathlib.Tactic.FieldSimp
import Mathlib.Tactic.Positivity
import Mathlib.Algebra.Order.Field.Rat
import Mathlib.Algebra.Order.Ring.Rat
import Mathlib.Algebra.BigOperators.Group.List.Basic

/-!
# Plane geometry over the rationals

Specification-level geometry used to state and prove the Delaunay properties.  Nothing
here models code; the code's integer predicates are related to these definitions in
`Verif/Incr`.
-/

namespace Verif.Tri

/-- A point of the rational plane. -/
@[ext]
structure P2 where
  x : ℚ
  y : ℚ
deriving DecidableEq

/-- Twice the signed area of `a b c` (positive: counterclockwise). -/
def ori (a b c : P2) : ℚ := (b.x - a.x) * (c.y - a.y) - (b.y - a.y) * (c.x - a.x)

theorem ori_rot (a b c : P2) : ori b c a = ori a b c := by unfold ori; ring
theorem ori_rot' (a b c : P2) : ori c a b = ori a b c := by unfold ori; ring
theorem ori_swap (a b c : P2) : ori b a c = - ori a b c := by unfold ori; ring
theorem ori_swap23 (a b c : P2) : ori a c b = - ori a b c := by unfold ori; ring
@[simp] theorem ori_self_left (a c : P2) : ori a a c = 0 := by unfold ori; ring
@[simp] theorem ori_self_right (a c : P2) : ori a c c = 0 := by unfold ori; ring
@[simp] theorem ori_self_mid (a c : P2) : ori a c a = 0 := by unfold ori; ring

theorem ori_sum (a b c q : P2) : ori b c q + ori c a q + ori a b q = ori a b c := by
  unfold ori; ring

/-- Monic quadratic `|x|² + al*x + be*y + ga`: the power function of a circle. -/
structure Pw where
  al : ℚ
  be : ℚ
  ga : ℚ

/-- Value of a power function. -/
def Pw.ev (f : Pw) (p : P2) : ℚ := p.x ^ 2 + p.y ^ 2 + f.al * p.x + f.be * p.y + f.ga

/-- Barycentric identity for the difference of two power functions (an affine function). -/
theorem Pw.bary (f g : Pw) (a b c x : P2) :
    ori a b c * (f.ev x - g.ev x) =
      ori b c x * (f.ev a - g.ev a) + ori c a x * (f.ev b - g.ev b)
        + ori a b x * (f.ev c - g.ev c) := by
  unfold Pw.ev ori; ring

/-- Two power functions vanishing at `u` and `v` differ by a multiple of `ori u v`. -/
theorem Pw.diff_edge (f g : Pw) (u v x y : P2) (fu : f.ev u = 0) (fv : f.ev v = 0)
    (gu : g.ev u = 0) (gv : g.ev v = 0) :
    ori u v y * (f.ev x - g.ev x) = ori u v x * (f.ev y - g.ev y) := by
  have h := Pw.bary f g u v y x
  rw [fu, fv, gu, gv] at h
  linarith

/-- Power functions agreeing at three non-collinear points agree everywhere. -/
theorem Pw.unique (f g : Pw) (a b c : P2) (h : ori a b c ≠ 0) (ha : f.ev a = g.ev a)
    (hb : f.ev b = g.ev b) (hc : f.ev c = g.ev c) (x : P2) : f.ev x = g.ev x := by
  have h1 := Pw.bary f g a b c x
  rw [ha, hb, hc] at h1
  simp only [sub_self, mul_zero, add_zero] at h1
  have := (mul_eq_zero.mp h1).resolve_left h
  linarith

/-- Quadratic part: the power of a barycentric combination. -/
theorem Pw.conv (f : Pw) (a b c x : P2) :
    ori a b c * ori a b c * f.ev x =
      ori a b c * (ori b c x * f.ev a + ori c a x * f.ev b + ori a b x * f.ev c)
      - (ori b c x * ori c a x * ((a.x - b.x) ^ 2 + (a.y - b.y) ^ 2)
        + ori c a x * ori a b x * ((b.x - c.x) ^ 2 + (b.y - c.y) ^ 2)
        + ori a b x * ori b c x * ((c.x - a.x) ^ 2 + (c.y - a.y) ^ 2)) := by
  unfold Pw.ev ori; ring

/-- A triangle. -/
@[ext]
structure T3 where
  a : P2
  b : P2
  c : P2
deriving DecidableEq

/-- `x` is a vertex of `t`. -/
def T3.Has (t : T3) (x : P2) : Prop := x = t.a ∨ x = t.b ∨ x = t.c

instance (t : T3) (x : P2) : Decidable (t.Has x) := by unfold T3.Has; infer_instance

/-- Orientation of a triangle. -/
def T3.or (t : T3) : ℚ := ori t.a t.b t.c

/-- Directed edges of a triangle. -/
def T3.edges (t : T3) : List (P2 × P2) := [(t.a, t.b), (t.b, t.c), (t.c, t.a)]

/-- Rotation of the vertex names. -/
def T3.rot (t : T3) : T3 := ⟨t.b, t.c, t.a⟩

/-- The power function of the circumcircle of `a b c`. -/
def pwT (a b c : P2) : Pw :=
  let na := a.x ^ 2 + a.y ^ 2
  let nb := b.x ^ 2 + b.y ^ 2
  let nc := c.x ^ 2 + c.y ^ 2
  let al := -((nb - na) * (c.y - a.y) - (nc - na) * (b.y - a.y)) / ori a b c
  let be := -((b.x - a.x) * (nc - na) - (c.x - a.x) * (nb - na)) / ori a b c
  ⟨al, be, -na - al * a.x - be * a.y⟩

theorem pwT_a (a b c : P2) : (pwT a b c).ev a = 0 := by
  unfold pwT Pw.ev; simp only; ring

theorem pwT_b (a b c : P2) (h : ori a b c ≠ 0) : (pwT a b c).ev b = 0 := by
  unfold pwT Pw.ev; simp only
  rw [div_mul_eq_mul_div, div_mul_eq_mul_div, div_mul_eq_mul_div, div_mul_eq_mul_div]
  field_simp
  unfold ori; ring

theorem pwT_c (a b c : P2) (h : ori a b c ≠ 0) : (pwT a b c).ev c = 0 := by
  unfold pwT Pw.ev; simp only
  rw [div_mul_eq_mul_div, div_mul_eq_mul_div, div_mul_eq_mul_div, div_mul_eq_mul_div]
  field_simp
  unfold ori; ring

/-- Power of `x` with respect to the circumcircle of `t`. -/
def T3.pow (t : T3) (x : P2) : ℚ := (pwT t.a t.b t.c).ev x

/-- The in-circle determinant. -/
def inc (a b c d : P2) : ℚ :=
  ((a.x-d.x)*(a.x-d.x)+(a.y-d.y)*(a.y-d.y))*((b.x-d.x)*(c.y-d.y)-(c.x-d.x)*(b.y-d.y)) +
  ((b.x-d.x)*(b.x-d.x)+(b.y-d.y)*(b.y-d.y))*((c.x-d.x)*(a.y-d.y)-(a.x-d.x)*(c.y-d.y)) +
  ((c.x-d.x)*(c.x-d.x)+(c.y-d.y)*(c.y-d.y))*((a.x-d.x)*(b.y-d.y)-(b.x-d.x)*(a.y-d.y))

/-- Any power function vanishing at `a b c` is `-inc / ori`. -/
theorem Pw.inc_eq (f : Pw) (a b c x : P2) (fa : f.ev a = 0) (fb : f.ev b = 0)
    (fc : f.ev c = 0) : ori a b c * f.ev x = - inc a b c x := by
  have : ori a b c * f.ev x + inc a b c x =
      ori b c x * f.ev a + ori c a x * f.ev b + ori a b x * f.ev c := by
    unfold ori Pw.ev inc; ring
  rw [fa, fb, fc] at this
  linarith

theorem T3.pow_inc (t : T3) (h : t.or ≠ 0) (x : P2) : t.or * t.pow x = - inc t.a t.b t.c x :=
  Pw.inc_eq _ _ _ _ _ (pwT_a _ _ _) (pwT_b _ _ _ h) (pwT_c _ _ _ h)

theorem T3.pow_vertex (t : T3) (h : t.or ≠ 0) {x : P2} (hx : t.Has x) : t.pow x = 0 := by
  rcases hx with rfl | rfl | rfl
  · exact pwT_a _ _ _
  · exact pwT_b _ _ _ h
  · exact pwT_c _ _ _ h

theorem T3.rot_or (t : T3) : t.rot.or = t.or := ori_rot _ _ _

theorem T3.rot_has (t : T3) (x : P2) : t.rot.Has x ↔ t.Has x := by
  unfold T3.Has T3.rot; simp only; tauto

theorem T3.rot_pow (t : T3) (h : t.or ≠ 0) (x : P2) : t.rot.pow x = t.pow x := by
  have h' : t.rot.or ≠ 0 := by rw [t.rot_or]; exact h
  apply Pw.unique _ _ t.a t.b t.c h
  · rw [pwT_a]; exact t.rot.pow_vertex h' (by unfold T3.Has T3.rot; simp)
  · rw [pwT_b _ _ _ h]; exact t.rot.pow_vertex h' (by unfold T3.Has T3.rot; simp)
  · rw [pwT_c _ _ _ h]; exact t.rot.pow_vertex h' (by unfold T3.Has T3.rot; simp)

/-- A point of the closed triangle has nonpositive power; zero only at a vertex. -/
theorem T3.pow_closed (t : T3) (h : 0 < t.or) (x : P2) (h1 : 0 ≤ ori t.a t.b x)
    (h2 : 0 ≤ ori t.b t.c x) (h3 : 0 ≤ ori t.c t.a x) :
    t.pow x ≤ 0 ∧ (t.pow x = 0 → t.Has x) := by
  have hc := Pw.conv (pwT t.a t.b t.c) t.a t.b t.c x
  rw [pwT_a, pwT_b _ _ _ h.ne', pwT_c _ _ _ h.ne'] at hc
  have hs := ori_sum t.a t.b t.c x
  change t.or * t.or * t.pow x = _ at hc
  change _ = t.or at hs
  have d1 : 0 ≤ (t.a.x - t.b.x) ^ 2 + (t.a.y - t.b.y) ^ 2 := by positivity
  have d2 : 0 ≤ (t.b.x - t.c.x) ^ 2 + (t.b.y - t.c.y) ^ 2 := by positivity
  have d3 : 0 ≤ (t.c.x - t.a.x) ^ 2 + (t.c.y - t.a.y) ^ 2 := by positivity
  have e1 := mul_nonneg (mul_nonneg h2 h3) d1
  have e2 := mul_nonneg (mul_nonneg h3 h1) d2
  have e3 := mul_nonneg (mul_nonneg h1 h2) d3
  have hp : 0 < t.or * t.or := mul_pos h h
  refine ⟨?_, ?_⟩
  · by_contra hn
    push Not at hn
    have := mul_pos hp hn
    linarith
  · intro h0
    rw [h0] at hc
    have f1 : ori t.b t.c x * ori t.c t.a x * ((t.a.x - t.b.x) ^ 2 + (t.a.y - t.b.y) ^ 2) = 0 := by
      linarith
    have f2 : ori t.c t.a x * ori t.a t.b x * ((t.b.x - t.c.x) ^ 2 + (t.b.y - t.c.y) ^ 2) = 0 := by
      linarith
    have f3 : ori t.a t.b x * ori t.b t.c x * ((t.c.x - t.a.x) ^ 2 + (t.c.y - t.a.y) ^ 2) = 0 := by
      linarith
    have dist : ∀ p q : P2, (p.x - q.x) ^ 2 + (p.y - q.y) ^ 2 = 0 → p = q := by
      intro p q hpq
      have a1 : (p.x - q.x) ^ 2 = 0 := by nlinarith [sq_nonneg (p.x - q.x), sq_nonneg (p.y - q.y)]
      have a2 : (p.y - q.y) ^ 2 = 0 := by nlinarith [sq_nonneg (p.x - q.x), sq_nonneg (p.y - q.y)]
      ext
      · have := pow_eq_zero_iff (two_ne_zero) |>.mp a1; linarith
      · have := pow_eq_zero_iff (two_ne_zero) |>.mp a2; linarith
    have nab : (t.a.x - t.b.x) ^ 2 + (t.a.y - t.b.y) ^ 2 ≠ 0 := by
      intro h0; have := dist _ _ h0; unfold T3.or at h; rw [this] at h; simp at h
    have nbc : (t.b.x - t.c.x) ^ 2 + (t.b.y - t.c.y) ^ 2 ≠ 0 := by
      intro h0; have := dist _ _ h0; unfold T3.or at h; rw [this] at h; simp at h
    have nca : (t.c.x - t.a.x) ^ 2 + (t.c.y - t.a.y) ^ 2 ≠ 0 := by
      intro h0; have := dist _ _ h0; unfold T3.or at h; rw [this] at h; simp at h
    have g1 := (mul_eq_zero.mp f1).resolve_right nab
    have g2 := (mul_eq_zero.mp f2).resolve_right nbc
    have g3 := (mul_eq_zero.mp f3).resolve_right nca
    -- x in terms of barycentric coordinates
    have bx : t.or * x.x = ori t.b t.c x * t.a.x + ori t.c t.a x * t.b.x + ori t.a t.b x * t.c.x := by
      unfold T3.or ori; ring
    have bY : t.or * x.y = ori t.b t.c x * t.a.y + ori t.c t.a x * t.b.y + ori t.a t.b x * t.c.y := by
      unfold T3.or ori; ring
    have fin : ∀ z : P2, t.or * x.x = t.or * z.x → t.or * x.y = t.or * z.y → x = z := by
      intro z hx hy
      ext
      · exact mul_left_cancel₀ h.ne' hx
      · exact mul_left_cancel₀ h.ne' hy
    have two : (ori t.c t.a x = 0 ∧ ori t.a t.b x = 0) ∨ (ori t.b t.c x = 0 ∧ ori t.a t.b x = 0) ∨
        (ori t.b t.c x = 0 ∧ ori t.c t.a x = 0) := by
      rcases mul_eq_zero.mp g1 with k | k
      · rcases mul_eq_zero.mp g2 with l | l
        · exact Or.inr (Or.inr ⟨k, l⟩)
        · exact Or.inr (Or.inl ⟨k, l⟩)
      · rcases mul_eq_zero.mp g3 with m | m
        · exact Or.inl ⟨k, m⟩
        · exact Or.inr (Or.inr ⟨m, k⟩)
    rcases two with ⟨k, l⟩ | ⟨k, l⟩ | ⟨k, l⟩
    · left
      rw [k, l] at bx bY hs
      refine fin _ ?_ ?_
      · rw [bx, ← hs]; ring
      · rw [bY, ← hs]; ring
    · right; left
      rw [k, l] at bx bY hs
      refine fin _ ?_ ?_
      · rw [bx, ← hs]; ring
      · rw [bY, ← hs]; ring
    · right; right
      rw [k, l] at bx bY hs
      refine fin _ ?_ ?_
      · rw [bx, ← hs]; ring
      · rw [bY, ← hs]; ring

end Verif.Tri

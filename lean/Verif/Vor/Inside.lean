import Verif.Vor.Geom
import Verif.Vor.Bounds
import Mathlib.Data.Finset.Max

/-!
# The vertices of a polygon are in the cell (exact arithmetic)
-/

namespace Verif.Vor

open Verif.Incr hiding trunc step run Entry
open Verif.Tri Verif.Spec Verif.Float

variable {w h : Nat} {s : Multiset Pt} {q : Pt}

/-! ### Walking in the cell -/

/-- `p` is in the cell of `q`. -/
def InCell (w h : Nat) (s : Multiset Pt) (q : Pt) (p : P2) : Prop := ∀ x, Site w h s x → d2 p q ≤ d2 p x

/-- In every direction from an image point there is a corner of the bounding triangle. -/
theorem site_dir (k : SizeOk w h) (hq : InImg w h q) {a b : ℚ} (hne : ¬ (a = 0 ∧ b = 0)) :
    ∃ x, Site w h s x ∧ 0 < ((x.x : ℚ) - q.x) * a + ((x.y : ℚ) - q.y) * b := by
  by_contra hc
  push Not at hc
  have hi := img_inside k hq
  rw [(super_norm k).1] at hi
  obtain ⟨h1, h2, h3⟩ := hi
  have ha := hc (newSuperTriangle w h).a (Or.inr (Or.inl rfl))
  have hb := hc (newSuperTriangle w h).b (Or.inr (Or.inr (Or.inl rfl)))
  have hc := hc (newSuperTriangle w h).c (Or.inr (Or.inr (Or.inr rfl)))
  unfold ori toP at h1 h2 h3
  simp only at h1 h2 h3
  set ax : ℚ := (newSuperTriangle w h).a.x - q.x with eax
  set ay : ℚ := (newSuperTriangle w h).a.y - q.y with eay
  set bx : ℚ := (newSuperTriangle w h).b.x - q.x with ebx
  set b_y : ℚ := (newSuperTriangle w h).b.y - q.y with eby
  set cx : ℚ := (newSuperTriangle w h).c.x - q.x with ecx
  set cy : ℚ := (newSuperTriangle w h).c.y - q.y with ecy
  have k1 : 0 < bx * ay - b_y * ax := by rw [eax, eay, ebx, eby]; linarith
  have k2 : 0 < ax * cy - ay * cx := by rw [eax, eay, ecx, ecy]; linarith
  have k3 : 0 < cx * b_y - cy * bx := by rw [ecx, ecy, ebx, eby]; linarith
  have sum : (ax * cy - ay * cx) * (bx * a + b_y * b) + (cx * b_y - cy * bx) * (ax * a + ay * b) +
      (bx * ay - b_y * ax) * (cx * a + cy * b) = 0 := by ring
  have z1 : (ax * cy - ay * cx) * (bx * a + b_y * b) ≤ 0 := mul_nonpos_of_nonneg_of_nonpos k2.le hb
  have z2 : (cx * b_y - cy * bx) * (ax * a + ay * b) ≤ 0 := mul_nonpos_of_nonneg_of_nonpos k3.le ha
  have z3 : (bx * ay - b_y * ax) * (cx * a + cy * b) ≤ 0 := mul_nonpos_of_nonneg_of_nonpos k1.le hc
  have y1 : bx * a + b_y * b = 0 := (mul_eq_zero.mp (le_antisymm z1 (by linarith))).resolve_left k2.ne'
  have y2 : ax * a + ay * b = 0 := (mul_eq_zero.mp (le_antisymm z2 (by linarith))).resolve_left k3.ne'
  refine hne ⟨?_, ?_⟩
  · have : (bx * ay - b_y * ax) * a = 0 := by linear_combination ay * y1 - b_y * y2
    exact (mul_eq_zero.mp this).resolve_left k1.ne'
  · have : (bx * ay - b_y * ax) * b = 0 := by linear_combination bx * y2 - ax * y1
    exact (mul_eq_zero.mp this).resolve_left k1.ne'

theorem sites_finite (w h : Nat) (s : Multiset Pt) : ∃ S : Finset Pt, ∀ x, x ∈ S ↔ Site w h s x := by
  classical
  refine ⟨s.toFinset ∪ {(newSuperTriangle w h).a, (newSuperTriangle w h).b, (newSuperTriangle w h).c}, fun x => ?_⟩
  simp only [Site, IsVertex, Finset.mem_union, Multiset.mem_toFinset, Finset.mem_insert, Finset.mem_singleton]

/-- Walk from `p` in a direction until the cell ends. -/
theorem walk (k : SizeOk w h) (hq : InImg w h q) {p : P2} (hp : InCell w h s q p) {a b : ℚ} (hne : ¬ (a = 0 ∧ b = 0)) :
    ∃ t x, 0 ≤ t ∧ Site w h s x ∧ 0 < ((x.x : ℚ) - q.x) * a + ((x.y : ℚ) - q.y) * b ∧
      InCell w h s q ⟨p.x + t * a, p.y + t * b⟩ ∧ d2 ⟨p.x + t * a, p.y + t * b⟩ x = d2 ⟨p.x + t * a, p.y + t * b⟩ q := by
  classical
  obtain ⟨S, hS⟩ := sites_finite w h s
  let dir : Pt → ℚ := fun x => ((x.x : ℚ) - q.x) * a + ((x.y : ℚ) - q.y) * b
  let ratio : Pt → ℚ := fun x => (d2 p x - d2 p q) / (2 * dir x)
  obtain ⟨x0, s0, d0⟩ := site_dir (s := s) k hq hne
  obtain ⟨x, hx, hmin⟩ := Finset.exists_min_image (S.filter fun x => 0 < dir x) ratio
    ⟨x0, Finset.mem_filter.mpr ⟨(hS x0).mpr s0, d0⟩⟩
  obtain ⟨hxS, hxd⟩ := Finset.mem_filter.mp hx
  have hsx := (hS x).mp hxS
  have t0 : 0 ≤ ratio x := div_nonneg (by have := hp x hsx; linarith) (by linarith)
  have move : ∀ y : Pt, d2 ⟨p.x + ratio x * a, p.y + ratio x * b⟩ y - d2 ⟨p.x + ratio x * a, p.y + ratio x * b⟩ q =
      (d2 p y - d2 p q) - 2 * ratio x * dir y := by
    intro y
    simp only [d2, dir]
    ring
  refine ⟨ratio x, x, t0, hsx, hxd, fun y hy => ?_, ?_⟩
  · have := hp y hy
    have hm := move y
    by_cases hd : 0 < dir y
    · have hr := hmin y (Finset.mem_filter.mpr ⟨(hS y).mpr hy, hd⟩)
      have : ratio x * (2 * dir y) ≤ d2 p y - d2 p q := (le_div_iff₀ (by linarith)).mp hr
      nlinarith
    · have : ratio x * dir y ≤ 0 := mul_nonpos_of_nonneg_of_nonpos t0 (not_lt.mp hd)
      nlinarith
  · have hm := move x
    have : ratio x * (2 * dir x) = d2 p x - d2 p q := div_mul_cancel₀ _ (by linarith)
    linarith

/-- There is a corner of the cell in every direction. -/
theorem corner_dir (k : SizeOk w h) (hq : InImg w h q) {a b : ℚ} (hne : ¬ (a = 0 ∧ b = 0)) :
    ∃ o, Corner w h s q o ∧ 0 < (o.x - q.x) * a + (o.y - q.y) * b := by
  have c0 : InCell w h s q (toP q) := by
    intro x _
    simp only [d2, toP, sub_self]
    have := sq_nonneg ((q.x : ℚ) - x.x)
    have := sq_nonneg ((q.y : ℚ) - x.y)
    linarith
  obtain ⟨t, x, t0, sx, dx, c1, e1⟩ := walk k hq c0 hne
  have xq : x ≠ q := by rintro rfl; simp at dx
  have tp : 0 < t := by
    refine lt_of_le_of_ne t0 fun e => ?_
    rw [← e] at e1
    simp only [d2, toP, zero_mul, add_zero, sub_self] at e1
    have : (x.x : ℚ) - q.x = 0 ∧ (x.y : ℚ) - q.y = 0 := by
      constructor <;> nlinarith [sq_nonneg ((x.x : ℚ) - q.x), sq_nonneg ((x.y : ℚ) - q.y)]
    rw [this.1, this.2] at dx
    simp at dx
  have ab : 0 < a ^ 2 + b ^ 2 := by
    by_cases ha : a = 0
    · have : b ≠ 0 := fun hb => hne ⟨ha, hb⟩
      positivity
    · positivity
  -- the direction along the bisector
  obtain ⟨c, d, hcd, horth, hup⟩ : ∃ c d : ℚ, ¬ (c = 0 ∧ d = 0) ∧ ((x.x : ℚ) - q.x) * c + ((x.y : ℚ) - q.y) * d = 0 ∧ 0 ≤ c * a + d * b := by
    have hx0 : ¬ ((x.x : ℚ) - q.x = 0 ∧ (x.y : ℚ) - q.y = 0) := by
      rintro ⟨h1, h2⟩
      rw [h1, h2] at dx
      simp at dx
    rcases le_total 0 (-((x.y : ℚ) - q.y) * a + ((x.x : ℚ) - q.x) * b) with hs | hs
    · exact ⟨-((x.y : ℚ) - q.y), (x.x : ℚ) - q.x, fun ⟨h1, h2⟩ => hx0 ⟨h2, by linarith⟩, by ring, hs⟩
    · exact ⟨(x.y : ℚ) - q.y, -((x.x : ℚ) - q.x), fun ⟨h1, h2⟩ => hx0 ⟨by linarith, h1⟩, by ring, by linarith⟩
  obtain ⟨t', x', t0', sx', dx', c2, e2⟩ := walk k hq c1 hcd
  have xq' : x' ≠ q := by rintro rfl; simp at dx'
  have xx' : x ≠ x' := by rintro rfl; linarith
  refine ⟨_, ⟨⟨x, x', sx, sx', xq, xq', xx', ?_, e2⟩, c2⟩, ?_⟩
  · simp only [d2, toP] at e1 ⊢
    linear_combination e1 - 2 * t' * horth
  · simp only [toP]
    have : 0 < t * (a ^ 2 + b ^ 2) := by positivity
    have : 0 ≤ t' * (c * a + d * b) := by positivity
    linarith

/-- Two corners on one ray from the point are the same. -/
theorem corner_ray {o o' : P2} (ho : Corner w h s q o) (ho' : Corner w h s q o')
    (hc : (o.x - q.x) * (o'.y - q.y) = (o.y - q.y) * (o'.x - q.x)) (hd : 0 < (o.x - q.x) * (o'.x - q.x) + (o.y - q.y) * (o'.y - q.y)) :
    o = o' := by
  obtain ⟨⟨u, _, su, -, n1, -, -, e1, -⟩, del⟩ := ho
  obtain ⟨⟨u', _, su', -, n1', -, -, e1', -⟩, del'⟩ := ho'
  have i1 := del' u su
  have i2 := del u' su'
  unfold d2 at e1 e1' i1 i2
  obtain ⟨x, hx⟩ : ∃ x, x = o.x - q.x := ⟨_, rfl⟩
  obtain ⟨y, hy⟩ : ∃ y, y = o.y - q.y := ⟨_, rfl⟩
  obtain ⟨x', hx'⟩ : ∃ x', x' = o'.x - q.x := ⟨_, rfl⟩
  obtain ⟨y', hy'⟩ : ∃ y', y' = o'.y - q.y := ⟨_, rfl⟩
  obtain ⟨a, ha⟩ : ∃ a : ℚ, a = u.x - q.x := ⟨_, rfl⟩
  obtain ⟨b, hb⟩ : ∃ b : ℚ, b = u.y - q.y := ⟨_, rfl⟩
  obtain ⟨a', ha'⟩ : ∃ a' : ℚ, a' = u'.x - q.x := ⟨_, rfl⟩
  obtain ⟨b', hb'⟩ : ∃ b' : ℚ, b' = u'.y - q.y := ⟨_, rfl⟩
  rw [← hx, ← hy, ← hx', ← hy'] at hc hd
  have pos : ∀ {v : Pt}, v ≠ q → 0 < ((v.x : ℚ) - q.x) ^ 2 + ((v.y : ℚ) - q.y) ^ 2 := by
    intro v hv
    have : (v.x : ℚ) - q.x ≠ 0 ∨ (v.y : ℚ) - q.y ≠ 0 := by
      by_contra hn
      push Not at hn
      exact hv (Pt.ext (by exact_mod_cast sub_eq_zero.mp hn.1) (by exact_mod_cast sub_eq_zero.mp hn.2))
    rcases this with k | k <;> positivity
  have pu := pos n1
  have pu' := pos n1'
  rw [← ha, ← hb] at pu
  rw [← ha', ← hb'] at pu'
  have f1 : a ^ 2 + b ^ 2 = 2 * (x * a + y * b) := by rw [ha, hb, hx, hy]; linarith
  have f2 : a' ^ 2 + b' ^ 2 = 2 * (x' * a' + y' * b') := by rw [ha', hb', hx', hy']; linarith
  have g1 : 2 * (x' * a + y' * b) ≤ a ^ 2 + b ^ 2 := by rw [ha, hb, hx', hy']; linarith
  have g2 : 2 * (x * a' + y * b') ≤ a' ^ 2 + b' ^ 2 := by rw [ha', hb', hx, hy]; linarith
  set D := x * x' + y * y' with hD
  -- x' = l x with l = D / (x^2+y^2)
  have n1 : (x ^ 2 + y ^ 2) * (x' * a + y' * b) = D * (x * a + y * b) := by
    rw [hD]; linear_combination (b * x - a * y) * hc
  have n2 : (x' ^ 2 + y' ^ 2) * (x * a' + y * b') = D * (x' * a' + y' * b') := by
    rw [hD]; linear_combination (a' * y' - b' * x') * hc
  have q1 : D ≤ x ^ 2 + y ^ 2 := by
    have h1 : 0 < x * a + y * b := by linarith
    have h2 : (x ^ 2 + y ^ 2) * (x' * a + y' * b) ≤ (x ^ 2 + y ^ 2) * (x * a + y * b) := mul_le_mul_of_nonneg_left (by linarith) (by positivity)
    rw [n1] at h2
    exact le_of_mul_le_mul_right h2 h1
  have q2 : D ≤ x' ^ 2 + y' ^ 2 := by
    have h1 : 0 < x' * a' + y' * b' := by linarith
    have h2 : (x' ^ 2 + y' ^ 2) * (x * a' + y * b') ≤ (x' ^ 2 + y' ^ 2) * (x' * a' + y' * b') :=
      mul_le_mul_of_nonneg_left (by linarith) (by positivity)
    rw [n2] at h2
    exact le_of_mul_le_mul_right h2 h1
  have lag : (x ^ 2 + y ^ 2) * (x' ^ 2 + y' ^ 2) = D * D := by rw [hD]; linear_combination (x * y' - y * x') * hc
  have r2 : x' ^ 2 + y' ^ 2 = D := by
    refine le_antisymm (le_of_mul_le_mul_left ?_ hd) q2
    rw [← lag]
    exact mul_le_mul_of_nonneg_right q1 (by positivity)
  have r1 : x ^ 2 + y ^ 2 = D := by
    rw [r2] at lag
    exact mul_right_cancel₀ hd.ne' lag
  have z : (x - x') ^ 2 + (y - y') ^ 2 = 0 := by rw [hD] at r1 r2; linarith
  have zx : x - x' = 0 := pow_eq_zero_iff (two_ne_zero) |>.mp (le_antisymm (by linarith [sq_nonneg (y - y')]) (sq_nonneg (x - x')))
  have zy : y - y' = 0 := pow_eq_zero_iff (two_ne_zero) |>.mp (le_antisymm (by linarith [sq_nonneg (x - x')]) (sq_nonneg (y - y')))
  exact P2.ext (by linarith) (by linarith)

/-! ### The order of directions -/

/-- The order of the sort, on offsets. -/
def Ord (b a : ℚ × ℚ) : Prop :=
  (b.1 < 0 ∧ 0 ≤ a.1) ∨ (b.1 < 0 ∧ a.1 < 0 ∧ a.1 * b.2 < b.1 * a.2) ∨
  (0 ≤ b.1 ∧ 0 ≤ a.1 ∧ ¬ (a.1 = 0 ∧ b.1 = 0) ∧ a.1 * b.2 < b.1 * a.2) ∨
  (a.1 = 0 ∧ b.1 = 0 ∧ (0 ≤ a.2 ∨ 0 ≤ b.2) ∧ b.2 < a.2) ∨ (a.1 = 0 ∧ b.1 = 0 ∧ a.2 < 0 ∧ b.2 < 0 ∧ a.2 < b.2)

/-- The cross product. -/
def cr (a b : ℚ × ℚ) : ℚ := a.1 * b.2 - a.2 * b.1

/-- Different directions, or opposite ones. -/
def NotRay (a b : ℚ × ℚ) : Prop := cr a b = 0 → a.1 * b.1 + a.2 * b.2 < 0

/-- A pair in order with no positive turn. -/
theorem ord_flat {a b : ℚ × ℚ} (hab : Ord a b) (hn : NotRay a b) (hc : cr a b ≤ 0) :
    (a.1 < 0 ∧ 0 ≤ b.1) ∨ (a.1 = 0 ∧ b.1 = 0 ∧ a.2 < 0 ∧ 0 < b.2) := by
  unfold Ord at hab
  unfold cr at hc
  rcases hab with h | ⟨_, _, h⟩ | ⟨_, _, _, h⟩ | ⟨h1, h2, _, h4⟩ | ⟨h1, h2, h3, h4, _⟩
  · exact Or.inl h
  · linarith
  · linarith
  · right
    have := hn (by unfold cr; rw [h1, h2]; ring)
    rw [h1, h2] at this
    refine ⟨h2, h1, ?_, ?_⟩
    · by_contra h; push Not at h; nlinarith
    · by_contra h; push Not at h; nlinarith
  · have := hn (by unfold cr; rw [h1, h2]; ring)
    rw [h1, h2] at this
    nlinarith

theorem turn_before {a b c : ℚ × ℚ} (hab : Ord a b) (hn : NotRay a b) (hc : cr a b ≤ 0) (hca : Ord c a) : cr a c ≤ 0 := by
  rcases ord_flat hab hn hc with ⟨a1, b1⟩ | ⟨a1, b1, a2, b2⟩
  · unfold Ord at hca
    unfold cr
    rcases hca with ⟨_, h⟩ | ⟨_, _, h⟩ | ⟨_, h, _⟩ | ⟨h, _⟩ | ⟨h, _⟩ <;> linarith
  · have : c.1 ≤ 0 := by
      unfold Ord at hca
      rcases hca with ⟨h, _⟩ | ⟨h, _⟩ | ⟨h, _, _, h'⟩ | ⟨_, h, _⟩ | ⟨_, h, _⟩
      · exact h.le
      · exact h.le
      · rw [a1] at h'; nlinarith
      · exact h.le
      · exact h.le
    unfold cr
    rw [a1]
    nlinarith

theorem turn_after {a b c : ℚ × ℚ} (hab : Ord a b) (hn : NotRay a b) (hc : cr a b ≤ 0) (hbc : Ord b c) : cr a c ≤ 0 := by
  rcases ord_flat hab hn hc with ⟨a1, b1⟩ | ⟨a1, b1, a2, b2⟩
  · unfold Ord at hbc
    unfold cr at hc ⊢
    rcases hbc with ⟨h, _⟩ | ⟨h, _⟩ | ⟨_, c1, _, h⟩ | ⟨c0, b0, _, h4⟩ | ⟨c0, b0, c2, b2, _⟩
    · linarith
    · linarith
    · rcases b1.eq_or_lt with b0 | bp
      · rw [← b0] at hc h
        have : b.2 < 0 := by
          by_contra hb; push Not at hb; nlinarith
        nlinarith
      · have e : b.1 * (a.1 * c.2 - a.2 * c.1) = c.1 * (a.1 * b.2 - a.2 * b.1) + a.1 * (b.1 * c.2 - c.1 * b.2) := by ring
        have : c.1 * (a.1 * b.2 - a.2 * b.1) ≤ 0 := mul_nonpos_of_nonneg_of_nonpos c1 hc
        have : a.1 * (b.1 * c.2 - c.1 * b.2) ≤ 0 := mul_nonpos_of_nonpos_of_nonneg a1.le (by linarith)
        by_contra hx
        push Not at hx
        have := mul_pos bp hx
        linarith
    · rw [b0] at hc
      rw [c0]
      have : 0 ≤ b.2 := by by_contra hb; push Not at hb; nlinarith
      nlinarith
    · rw [b0] at hc
      nlinarith
  · have : c.1 ≤ 0 := by
      unfold Ord at hbc
      rcases hbc with ⟨h, _⟩ | ⟨h, _⟩ | ⟨_, h, h0, h'⟩ | ⟨h, _⟩ | ⟨h, _⟩
      · linarith
      · linarith
      · rw [b1] at h'
        by_contra hx
        push Not at hx
        nlinarith
      · exact h.le
      · exact h.le
    unfold cr
    rw [a1]
    nlinarith

theorem turn_wrap {a b c : ℚ × ℚ} (hc : cr a b ≤ 0) (hbc : Ord b c) (hca : Ord c a) : cr a c ≤ 0 := by
  have direct : 0 ≤ cr c a → cr a c ≤ 0 := by
    intro h; unfold cr at h ⊢; linarith
  unfold Ord at hca
  rcases hca with ⟨c1, a1⟩ | ⟨_, _, h⟩ | ⟨_, _, _, h⟩ | ⟨h1, h2, _⟩ | ⟨h1, h2, _⟩
  · refine direct ?_
    have ⟨b1, hb⟩ : b.1 < 0 ∧ c.1 * b.2 < b.1 * c.2 := by
      unfold Ord at hbc
      rcases hbc with ⟨_, h⟩ | ⟨h, _, h'⟩ | ⟨_, h, _⟩ | ⟨h, _⟩ | ⟨h, _⟩
      · linarith
      · exact ⟨h, h'⟩
      · linarith
      · linarith
      · linarith
    unfold cr at hc ⊢
    have e : (c.1 * a.2 - c.2 * a.1) * (-b.1) = (b.1 * c.2 - c.1 * b.2) * a.1 + (a.1 * b.2 - a.2 * b.1) * c.1 := by ring
    have : 0 ≤ (b.1 * c.2 - c.1 * b.2) * a.1 := mul_nonneg (by linarith) a1
    have : 0 ≤ (a.1 * b.2 - a.2 * b.1) * c.1 := mul_nonneg_of_nonpos_of_nonpos hc c1.le
    by_contra hx
    push Not at hx
    have := mul_neg_of_neg_of_pos hx (neg_pos.mpr b1)
    linarith
  · refine direct ?_; unfold cr; linarith
  · refine direct ?_; unfold cr; linarith
  · refine direct ?_; unfold cr; rw [h1, h2]; simp
  · refine direct ?_; unfold cr; rw [h1, h2]; simp

/-- In a sorted list of directions that leave no half plane empty, every element turns to its successor. -/
theorem sorted_turn {l : List (ℚ × ℚ)} (hs : l.Pairwise Ord) (hn : l.Pairwise NotRay)
    (hdir : ∀ a ∈ l, ∃ c ∈ l, 0 < cr a c) : ∀ e ∈ pairs l, 0 < cr e.1 e.2 := by
  intro e he
  obtain ⟨i, hi, rfl⟩ := index_pairs he
  by_contra hle
  push Not at hle
  simp only at hle
  obtain ⟨c, hc, hpos⟩ := hdir _ (List.getElem_mem hi)
  obtain ⟨j, hj, rfl⟩ := List.mem_iff_getElem.mp hc
  have S := List.pairwise_iff_getElem.mp hs
  have N := List.pairwise_iff_getElem.mp hn
  refine absurd hpos (not_lt.mpr ?_)
  by_cases hji : j = i
  · subst hji; unfold cr; linarith
  by_cases hw : i + 1 < l.length
  · simp only [Nat.mod_eq_of_lt hw] at hle
    by_cases hj1 : j = i + 1
    · subst hj1; exact hle
    rcases Nat.lt_or_gt_of_ne hji with hlt | hgt
    · exact turn_before (S i (i + 1) hi hw (by omega)) (N i (i + 1) hi hw (by omega)) hle (S j i hj hi hlt)
    · exact turn_after (S i (i + 1) hi hw (by omega)) (N i (i + 1) hi hw (by omega)) hle (S (i + 1) j hw hj (by omega))
  · have e : i + 1 = l.length := by omega
    simp only [e, Nat.mod_self] at hle
    by_cases hj0 : j = 0
    · subst hj0; exact hle
    · exact turn_wrap hle (S 0 j (by omega) hj (by omega)) (S j i hj hi (by omega))

/-! ### The cell -/

theorem inCell_comb {a b : P2} (ha : InCell w h s q a) (hb : InCell w h s q b) {t : ℚ} (t0 : 0 ≤ t) (t1 : t ≤ 1) :
    InCell w h s q ⟨a.x + t * (b.x - a.x), a.y + t * (b.y - a.y)⟩ := by
  intro x hx
  have h1 := ha x hx
  have h2 := hb x hx
  have e : d2 ⟨a.x + t * (b.x - a.x), a.y + t * (b.y - a.y)⟩ x - d2 ⟨a.x + t * (b.x - a.x), a.y + t * (b.y - a.y)⟩ q =
      (1 - t) * (d2 a x - d2 a q) + t * (d2 b x - d2 b q) := by unfold d2; ring
  have : 0 ≤ (1 - t) * (d2 a x - d2 a q) := mul_nonneg (by linarith) (by linarith)
  have : 0 ≤ t * (d2 b x - d2 b q) := mul_nonneg t0 (by linarith)
  linarith

/-- A point of the triangle of `q` and two points of the cell is in the cell. -/
theorem inCell_triangle {a b r : ℚ × ℚ} (ha : InCell w h s q ⟨a.1, a.2⟩) (hb : InCell w h s q ⟨b.1, b.2⟩)
    (hD : 0 < area ((q.x : ℚ), (q.y : ℚ)) a b) (h1 : 0 ≤ area ((q.x : ℚ), (q.y : ℚ)) a r) (h2 : 0 ≤ area b ((q.x : ℚ), (q.y : ℚ)) r)
    (h3 : 0 ≤ area a b r) : InCell w h s q ⟨r.1, r.2⟩ := by
  intro x hx
  have g1 := ha x hx
  have g2 := hb x hx
  have g0 : 0 ≤ d2 (toP q) x - d2 (toP q) q := by
    simp only [d2, toP, sub_self]
    have := sq_nonneg ((q.x : ℚ) - x.x)
    have := sq_nonneg ((q.y : ℚ) - x.y)
    linarith
  have e : area ((q.x : ℚ), (q.y : ℚ)) a b * (d2 ⟨r.1, r.2⟩ x - d2 ⟨r.1, r.2⟩ q) =
      area a b r * (d2 (toP q) x - d2 (toP q) q) + area b ((q.x : ℚ), (q.y : ℚ)) r * (d2 ⟨a.1, a.2⟩ x - d2 ⟨a.1, a.2⟩ q) +
        area ((q.x : ℚ), (q.y : ℚ)) a r * (d2 ⟨b.1, b.2⟩ x - d2 ⟨b.1, b.2⟩ q) := by
    simp only [area, d2, toP]; ring
  have p0 := mul_nonneg h3 g0
  have p1 := mul_nonneg h2 (sub_nonneg.mpr g1)
  have p2 := mul_nonneg h1 (sub_nonneg.mpr g2)
  by_contra hlt
  push Not at hlt
  have := mul_neg_of_pos_of_neg hD (sub_neg.mpr hlt)
  linarith

/-- Offset from the point. -/
def off (q : Pt) (c : FP) : ℚ × ℚ := (c.1 - q.x, c.2 - q.y)

theorem cr_area (a b : FP) : cr (off q a) (off q b) = area ((q.x : ℚ), (q.y : ℚ)) a b := rfl

variable {F : FloatOps}

theorem stored_exact (E : Exact F) (o : P2) : stored F o = (o.x, o.y) := by simp [stored, E.1, E.2]

theorem corner_cell (E : Exact F) {cs : List FP} (hl : ListsCorners F w h s q cs) {c : FP} (hc : c ∈ cs) :
    Corner w h s q ⟨c.1, c.2⟩ := by
  obtain ⟨o, ho, rfl⟩ := (hl.2 c).mp hc
  rw [stored_exact E]
  exact ho

/-- The sorted corners: every corner turns to its successor. -/
theorem corners_turn (E : Exact F) (k : SizeOk w h) (hq : InImg w h q) {cs pts : List FP} (hl : ListsCorners F w h s q cs)
    (hp : pts.Perm cs) (hs : pts.Pairwise (fun a b => cmp F ((q.x : ℚ), (q.y : ℚ)) a b = some true)) :
    ∀ e ∈ pairs pts, 0 < area ((q.x : ℚ), (q.y : ℚ)) e.1 e.2 := by
  have hr : Rnd 53 F.r64 := by
    have : F.r64 = fun x => x := funext E.1
    rw [this]; exact id_rnd 53
  have hmem : ∀ c ∈ pts, Corner w h s q ⟨c.1, c.2⟩ := fun c hc => corner_cell E hl (hp.mem_iff.mp hc)
  have hdir : ∀ a b : ℚ, ¬ (a = 0 ∧ b = 0) → ∃ c ∈ pts, 0 < (c.1 - q.x) * a + (c.2 - q.y) * b := by
    intro a b hne
    obtain ⟨o, ho, hd⟩ := corner_dir (s := s) k hq hne
    refine ⟨(o.x, o.y), hp.mem_iff.mpr ((hl.2 _).mpr ⟨o, ho, (stored_exact E o).symm⟩), hd⟩
  have nz : ∀ c ∈ pts, ¬ (c.1 - (q.x : ℚ) = 0 ∧ c.2 - (q.y : ℚ) = 0) := by
    rintro c hc ⟨h1, h2⟩
    obtain ⟨⟨u, _, -, -, n1, -, -, e1, -⟩, -⟩ := hmem c hc
    simp only [d2, h1, h2] at e1
    have e1' : (c.1 - (u.x : ℚ)) ^ 2 + (c.2 - (u.y : ℚ)) ^ 2 = 0 := by linarith
    have z1 : c.1 - (u.x : ℚ) = 0 := pow_eq_zero_iff (two_ne_zero) |>.mp (le_antisymm (by linarith [sq_nonneg (c.2 - (u.y : ℚ))]) (sq_nonneg _))
    have z2 : c.2 - (u.y : ℚ) = 0 := pow_eq_zero_iff (two_ne_zero) |>.mp (le_antisymm (by linarith [sq_nonneg (c.1 - (u.x : ℚ))]) (sq_nonneg _))
    exact n1 (Pt.ext (by exact_mod_cast (by linarith : (u.x : ℚ) = q.x)) (by exact_mod_cast (by linarith : (u.y : ℚ) = q.y)))
  have key := sorted_turn (l := pts.map (off q)) ?_ ?_ ?_
  · intro e he
    have : (off q e.1, off q e.2) ∈ pairs (pts.map (off q)) := by
      obtain ⟨i, hi, rfl⟩ := index_pairs he
      have := pairs_index (pts.map (off q)) i (by simpa using hi)
      simpa using this
    exact key _ this
  · rw [List.pairwise_map]
    refine hs.imp ?_
    intro a b hab
    have := cmp_true hr hab
    unfold Bef dx dy at this
    simp only [E.1] at this
    unfold Ord off
    rcases this with h | h | h | ⟨h1, h2, h3, h4⟩ | ⟨h1, h2, h3, h4, h5⟩
    · exact Or.inl h
    · exact Or.inr (Or.inl h)
    · exact Or.inr (Or.inr (Or.inl h))
    · exact Or.inr (Or.inr (Or.inr (Or.inl ⟨h1, h2, h3, by simpa using h4⟩)))
    · exact Or.inr (Or.inr (Or.inr (Or.inr ⟨h1, h2, h3, h4, by simpa using h5⟩)))
  · rw [List.pairwise_map]
    have nd : pts.Nodup := hp.nodup_iff.mpr hl.1
    refine List.Pairwise.imp_of_mem ?_ nd
    intro a b ha hb hne hc
    by_contra hd
    push Not at hd
    have za := nz a ha
    have zb := nz b hb
    have hpos : 0 < (off q a).1 * (off q b).1 + (off q a).2 * (off q b).2 := by
      refine lt_of_le_of_ne hd fun e0 => ?_
      unfold cr at hc
      have la : ((off q a).1 ^ 2 + (off q a).2 ^ 2) * ((off q b).1 ^ 2 + (off q b).2 ^ 2) = 0 := by
        linear_combination ((off q a).1 * (off q b).2 - (off q a).2 * (off q b).1) * hc -
          ((off q a).1 * (off q b).1 + (off q a).2 * (off q b).2) * e0
      have sq0 : ∀ x y : ℚ, x ^ 2 + y ^ 2 = 0 → x = 0 ∧ y = 0 := by
        intro x y e
        exact ⟨pow_eq_zero_iff (two_ne_zero) |>.mp (le_antisymm (by linarith [sq_nonneg y]) (sq_nonneg _)),
          pow_eq_zero_iff (two_ne_zero) |>.mp (le_antisymm (by linarith [sq_nonneg x]) (sq_nonneg _))⟩
      rcases mul_eq_zero.mp la with e | e
      · exact za (sq0 _ _ e)
      · exact zb (sq0 _ _ e)
    have := corner_ray (hmem a ha) (hmem b hb) (by unfold cr off at hc; simp only at hc ⊢; linarith) hpos
    injection this with e1 e2
    exact hne (Prod.ext e1 e2)
  · intro a ha
    obtain ⟨c, hc, rfl⟩ := List.mem_map.mp ha
    obtain ⟨d, hd, hpos⟩ := hdir (-(c.2 - q.y)) (c.1 - q.x) (fun ⟨h1, h2⟩ => nz c hc ⟨h2, by linarith⟩)
    refine ⟨off q d, List.mem_map_of_mem hd, ?_⟩
    unfold cr off
    simp only
    linarith

/-- Every vertex of the polygon of a point is in the cell of the point. -/
theorem clipVertex_cell (E : Exact F) (k : SizeOk w h) (hq : InImg w h q) {cs pts : List FP} (hl : ListsCorners F w h s q cs)
    (hp : pts.Perm cs) (hs : pts.Pairwise (fun a b => cmp F ((q.x : ℚ), (q.y : ℚ)) a b = some true)) {c : FP} (hc : ClipVertex F w h pts c) :
    InCell w h s q ⟨c.1, c.2⟩ := by
  have hmem : ∀ c ∈ pts, InCell w h s q ⟨c.1, c.2⟩ := fun c hc => (corner_cell E hl (hp.mem_iff.mp hc)).2
  have turn := corners_turn E k hq hl hp hs
  cases hc with
  | corner hc _ => exact hmem c hc
  | @cut a b _ e hab _ hqi =>
    have ha := hmem a (mem_of_pairs hab).1
    have hb := hmem b (mem_of_pairs hab).2
    have hn : (e.2.1 - e.1.1) * (b.2 - a.2) - (e.2.2 - e.1.2) * (b.1 - a.1) ≠ 0 := by
      intro h0
      unfold segmentsIntersect at hqi
      simp only [E.1] at hqi
      rw [if_pos (by linarith)] at hqi
      cases hqi
    obtain ⟨-, t, t0, t1, rfl⟩ := (segments_iff E.1 hn c).mp hqi
    exact inCell_comb ha hb t0 t1
  | @image e _ hacc =>
    generalize e.2 = r at hacc
    rcases ppi_vertex_or r hacc with hm | hns
    · exact hmem r hm
    by_cases hr0 : r.1 - (q.x : ℚ) = 0 ∧ r.2 - (q.y : ℚ) = 0
    · intro x _
      simp only [d2, hr0.1, hr0.2]
      have := sq_nonneg (r.1 - (x.x : ℚ))
      have := sq_nonneg (r.2 - (x.y : ℚ))
      linarith
    have hdir : ∀ a b : ℚ, ¬ (a = 0 ∧ b = 0) → ∃ c ∈ pts, 0 < (c.1 - q.x) * a + (c.2 - q.y) * b := by
      intro a b hne
      obtain ⟨o, ho, hd⟩ := corner_dir (s := s) k hq hne
      refine ⟨(o.x, o.y), hp.mem_iff.mpr ((hl.2 _).mpr ⟨o, ho, (stored_exact E o).symm⟩), hd⟩
    obtain ⟨c1, m1, p1⟩ := hdir (r.2 - q.y) (-(r.1 - q.x)) (fun ⟨h1, h2⟩ => hr0 ⟨by linarith, h1⟩)
    obtain ⟨c2, m2, p2⟩ := hdir (-(r.2 - q.y)) (r.1 - q.x) (fun ⟨h1, h2⟩ => hr0 ⟨h2, by linarith⟩)
    have left : ∀ e ∈ pairs pts, 0 ≤ area e.1 e.2 r := by
      refine accept_left E.1 (r := ((q.x : ℚ), (q.y : ℚ))) ?_ hns
      have hne : pairs pts ≠ [] := by
        intro h0
        have := pairs_fst pts
        rw [h0] at this
        rw [← this] at m1
        cases m1
      obtain ⟨e0, es, he⟩ := List.exists_cons_of_ne_nil hne
      have : ∀ e ∈ pairs pts, 0 < area e.1 e.2 ((q.x : ℚ), (q.y : ℚ)) := by
        intro e he
        have := turn e he
        have e' : area e.1 e.2 ((q.x : ℚ), (q.y : ℚ)) = area ((q.x : ℚ), (q.y : ℚ)) e.1 e.2 := by unfold area; ring
        rw [e']; exact this
      refine lt_of_lt_of_le (this e0 (by rw [he]; simp)) (List.single_le_sum ?_ _ ?_)
      · intro x hx
        obtain ⟨e, hm, rfl⟩ := List.mem_map.mp hx
        exact (this e hm).le
      · exact List.mem_map_of_mem (f := fun e : FP × FP => area e.1 e.2 ((q.x : ℚ), (q.y : ℚ))) (by rw [he]; simp)
    obtain ⟨e, he, g1, g2⟩ : ∃ e ∈ pairs pts, 0 < area ((q.x : ℚ), (q.y : ℚ)) e.1 r ∧ area ((q.x : ℚ), (q.y : ℚ)) e.2 r ≤ 0 := by
      by_contra hno
      push Not at hno
      have := cyclic_all (P := fun c => 0 < area ((q.x : ℚ), (q.y : ℚ)) c r) hno m1 (by unfold area; simp only; linarith) c2 m2
      unfold area at this
      simp only at this
      linarith
    have m := mem_of_pairs he
    refine inCell_triangle (hmem _ m.1) (hmem _ m.2) (turn e he) g1.le ?_ (left e he)
    have e' : area e.2 ((q.x : ℚ), (q.y : ℚ)) r = - area ((q.x : ℚ), (q.y : ℚ)) e.2 r := by unfold area; ring
    rw [e']; linarith

end Verif.Vor

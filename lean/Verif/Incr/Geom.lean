import Verif.Incr.Model
import Verif.Tri.Count
import Mathlib.Algebra.Order.Ring.Int
import Mathlib.Algebra.Order.Group.Int
import Mathlib.Tactic.NormNum
import Mathlib.Tactic.Positivity
import Mathlib.Data.Int.Cast.Lemmas

/-!
# Integer predicates of the code and rational geometry
-/

namespace Verif.Incr

open Verif.Tri

/-- A code point as a point of the plane. -/
def toP (p : Pt) : P2 := ⟨(p.x : ℚ), (p.y : ℚ)⟩

theorem toP_inj {p q : Pt} (h : toP p = toP q) : p = q := by
  unfold toP at h
  simp only [P2.mk.injEq, Int.cast_inj] at h
  exact Pt.ext h.1 h.2

theorem w16_id {z : Int} (h1 : -32768 ≤ z) (h2 : z ≤ 32767) : w16 z = z := by
  unfold w16; rw [Int.bmod_def]; omega

theorem w64_id {z : Int} (h1 : -9223372036854775808 ≤ z) (h2 : z ≤ 9223372036854775807) : w64 z = z := by
  unfold w64; rw [Int.bmod_def]; omega

theorem abs_mul_le' {a b A B : Int} (ha : |a| ≤ A) (hb : |b| ≤ B) : |a * b| ≤ A * B := by
  rw [abs_mul]
  exact mul_le_mul ha hb (abs_nonneg _) ((abs_nonneg _).trans ha)

theorem abs_add_le' {a b A B : Int} (ha : |a| ≤ A) (hb : |b| ≤ B) : |a + b| ≤ A + B :=
  (abs_add_le a b).trans (add_le_add ha hb)

theorem abs_sub_le' {a b A B : Int} (ha : |a| ≤ A) (hb : |b| ≤ B) : |a - b| ≤ A + B := by
  have := abs_add_le' ha (b := -b) (B := B) (by rwa [abs_neg])
  rwa [sub_eq_add_neg]

/-- A point in the box spanned by the bounding triangle of an image of size up to 8191. -/
structure Near (p : Pt) : Prop where
  x1 : -16384 ≤ p.x
  x2 : p.x ≤ 20479
  y1 : -8192 ≤ p.y
  y2 : p.y ≤ 20479

theorem orientation_eq {a b c : Pt} (ha : Near a) (hb : Near b) (hc : Near c) :
    (orientation a b c : ℚ) = ori (toP a) (toP b) (toP c) := by
  have e : orientation a b c = (a.x - c.x) * (b.y - c.y) - (b.x - c.x) * (a.y - c.y) := by
    unfold orientation
    have h1 : |(a.x - c.x)| ≤ 40000 := abs_le.mpr ⟨by have := ha.x1; have := hc.x2; omega, by have := ha.x2; have := hc.x1; omega⟩
    have h2 : |(b.x - c.x)| ≤ 40000 := abs_le.mpr ⟨by have := hb.x1; have := hc.x2; omega, by have := hb.x2; have := hc.x1; omega⟩
    have h3 : |(b.y - c.y)| ≤ 40000 := abs_le.mpr ⟨by have := hb.y1; have := hc.y2; omega, by have := hb.y2; have := hc.y1; omega⟩
    have h4 : |(a.y - c.y)| ≤ 40000 := abs_le.mpr ⟨by have := ha.y1; have := hc.y2; omega, by have := ha.y2; have := hc.y1; omega⟩
    have h := abs_le.mp (abs_sub_le' (abs_mul_le' h1 h3) (abs_mul_le' h2 h4))
    exact w64_id (by omega) (by omega)
  rw [e]
  unfold ori toP
  push_cast
  ring

/-- Difference bounds for the in-circle determinant. -/
structure Close (a d : Pt) : Prop where
  x : |a.x - d.x| ≤ 24573
  y : |a.y - d.y| ≤ 24573

theorem inCircleDet_eq {a b c d : Pt} (ha : Close a d) (hb : Close b d) (hc : Close c d) :
    (inCircleDet a b c d : ℚ) = inc (toP a) (toP b) (toP c) (toP d) := by
  have hs : ∀ {p}, Close p d → |(p.x - d.x) * (p.x - d.x) + (p.y - d.y) * (p.y - d.y)| ≤ 24573 * 24573 + 24573 * 24573 :=
    fun h => abs_add_le' (abs_mul_le' h.x h.x) (abs_mul_le' h.y h.y)
  have hd : ∀ {p q}, Close p d → Close q d →
      |(p.x - d.x) * (q.y - d.y) - (q.x - d.x) * (p.y - d.y)| ≤ 24573 * 24573 + 24573 * 24573 :=
    fun h k => abs_sub_le' (abs_mul_le' h.x k.y) (abs_mul_le' k.x h.y)
  have h := abs_le.mp (abs_add_le' (abs_add_le' (abs_mul_le' (hs ha) (hd hb hc)) (abs_mul_le' (hs hb) (hd hc ha)))
    (abs_mul_le' (hs hc) (hd ha hb)))
  unfold inCircleDet
  simp only
  rw [w64_id (by omega) (by omega)]
  unfold inc toP
  push_cast
  ring

/-- A triangle of the code as a counterclockwise triangle of the plane. -/
def norm (t : Tri) : T3 :=
  if 0 < ori (toP t.a) (toP t.b) (toP t.c) then ⟨toP t.a, toP t.b, toP t.c⟩
  else ⟨toP t.b, toP t.a, toP t.c⟩

theorem norm_has (t : Tri) (x : P2) : (norm t).Has x ↔ x = toP t.a ∨ x = toP t.b ∨ x = toP t.c := by
  unfold norm T3.Has
  split <;> simp only
  tauto

theorem hasVertex_iff (t : Tri) (p : Pt) : t.hasVertex p = true ↔ (norm t).Has (toP p) := by
  rw [norm_has]
  simp only [Tri.hasVertex, Bool.or_eq_true, beq_iff_eq]
  constructor
  · rintro ((h | h) | h) <;> rw [h] <;> simp
  · rintro (h | h | h) <;> have := toP_inj h <;> simp [this]

theorem norm_or (t : Tri) : 0 < (norm t).or ↔ ori (toP t.a) (toP t.b) (toP t.c) ≠ 0 := by
  unfold norm
  split
  · rename_i h
    exact ⟨fun _ => h.ne', fun _ => h⟩
  · rename_i h
    unfold T3.or
    simp only
    rw [ori_swap]
    push Not at h
    constructor
    · intro k e; rw [e] at k; simp at k
    · intro k
      have := lt_of_le_of_ne h k
      linarith

theorem inc_swap (a b c d : P2) : inc b a c d = - inc a b c d := by unfold inc; ring

/-- The test of the grid is the closed-disc test. -/
theorem inTest_iff {t : Tri} {p : Pt} (na : Near t.a) (nb : Near t.b) (nc : Near t.c)
    (ha : Close t.a p) (hb : Close t.b p) (hc : Close t.c p) (ho : 0 < (norm t).or) :
    inTest p t = true ↔ (norm t).pow (toP p) ≤ 0 := by
  have hi : (inCircle t.a t.b t.c p : ℚ) = inc (norm t).a (norm t).b (norm t).c (toP p) := by
    have e := orientation_eq na nb nc
    have hne := (norm_or t).mp ho
    unfold inCircle norm
    by_cases h : 0 < ori (toP t.a) (toP t.b) (toP t.c)
    · rw [if_pos h, if_neg, inCircleDet_eq ha hb hc]
      rw [← e] at h
      have : 0 < orientation t.a t.b t.c := by exact_mod_cast h
      omega
    · rw [if_neg h, if_pos, inCircleDet_eq hb ha hc]
      have h2 : ori (toP t.a) (toP t.b) (toP t.c) < 0 := lt_of_le_of_ne (not_lt.mp h) hne
      rw [← e] at h2
      exact_mod_cast h2
  have hp := (norm t).pow_inc ho.ne' (toP p)
  have h0 : inTest p t = true ↔ (0 : ℚ) ≤ (inCircle t.a t.b t.c p : ℚ) := by
    unfold inTest
    rw [decide_eq_true_eq]
    exact_mod_cast Iff.rfl
  rw [h0, hi]
  constructor
  · intro h
    by_contra hn
    have := mul_pos ho (not_le.mp hn)
    linarith
  · intro h
    have := mul_nonneg ho.le (neg_nonneg.mpr h)
    linarith

/-- A point of the image (closed on both sides: coordinates are rounded from [0,1]). -/
structure InImg (w h : Nat) (p : Pt) : Prop where
  x1 : 0 ≤ p.x
  x2 : p.x ≤ w
  y1 : 0 ≤ p.y
  y2 : p.y ≤ h

/-- Image sizes covered by the main theorems. -/
structure SizeOk (w h : Nat) : Prop where
  w1 : 1 ≤ w
  h1 : 1 ≤ h
  w2 : w ≤ 8191
  h2 : h ≤ 8191
  two : 2 ≤ w ∨ 2 ≤ h

/-- The longer side. -/
def side (w h : Nat) : Nat := max w h

theorem super_eq {w h : Nat} (k : SizeOk w h) :
    newSuperTriangle w h =
      ⟨⟨((w + 1) / 2 : Nat) - 2 * (side w h : Int), ((h + 1) / 2 : Nat) - (side w h : Int)⟩,
       ⟨((w + 1) / 2 : Nat), ((h + 1) / 2 : Nat) + 2 * (side w h : Int)⟩,
       ⟨((w + 1) / 2 : Nat) + 2 * (side w h : Int), ((h + 1) / 2 : Nat) - (side w h : Int)⟩⟩ := by
  obtain ⟨w1, h1, w2, h2, two⟩ := k
  unfold newSuperTriangle side
  have hm : (if h > w then w16 (h : Int) else w16 (w : Int)) = ((max w h : Nat) : Int) := by
    split
    · rw [w16_id (by omega) (by omega)]; omega
    · rw [w16_id (by omega) (by omega)]; omega
  simp only [hm]
  generalize hM : max w h = m
  have hm1 : m ≤ 8191 := by omega
  have hm2 : 1 ≤ m := by omega
  have e1 : w16 (((w + 1) / 2 : Nat) : Int) = (((w + 1) / 2 : Nat) : Int) := w16_id (by omega) (by omega)
  have e2 : w16 (((h + 1) / 2 : Nat) : Int) = (((h + 1) / 2 : Nat) : Int) := w16_id (by omega) (by omega)
  have e3 : w16 (2 * (m : Int)) = 2 * m := w16_id (by omega) (by omega)
  rw [e1, e2, e3, w16_id (by omega) (by omega), w16_id (by omega) (by omega), w16_id (by omega) (by omega),
    w16_id (by omega) (by omega)]

/-- A point the triangulation may use: an image point or a bounding vertex. -/
def Ok (w h : Nat) (p : Pt) : Prop := InImg w h p ∨ (newSuperTriangle w h).hasVertex p = true

theorem super_verts {w h : Nat} (k : SizeOk w h) {p : Pt} (hp : (newSuperTriangle w h).hasVertex p = true) :
    (p.x = ((w + 1) / 2 : Nat) - 2 * (side w h : Int) ∧ p.y = ((h + 1) / 2 : Nat) - (side w h : Int)) ∨
    (p.x = ((w + 1) / 2 : Nat) ∧ p.y = ((h + 1) / 2 : Nat) + 2 * (side w h : Int)) ∨
    (p.x = ((w + 1) / 2 : Nat) + 2 * (side w h : Int) ∧ p.y = ((h + 1) / 2 : Nat) - (side w h : Int)) := by
  rw [super_eq k] at hp
  simp only [Tri.hasVertex, Bool.or_eq_true, beq_iff_eq] at hp
  rcases hp with (rfl | rfl) | rfl <;> simp

theorem side_bounds {w h : Nat} (k : SizeOk w h) :
    2 ≤ side w h ∧ side w h ≤ 8191 ∧ w ≤ side w h ∧ h ≤ side w h ∧ (side w h = w ∨ side w h = h) := by
  obtain ⟨w1, h1, w2, h2, two⟩ := k
  unfold side
  omega

theorem Ok.near {w h : Nat} (k : SizeOk w h) {p : Pt} (hp : Ok w h p) : Near p := by
  have hs := side_bounds k
  have := k.w1; have := k.h1; have := k.w2; have := k.h2
  rcases hp with hp | hp
  · obtain ⟨a, b, c, d⟩ := hp
    exact ⟨by omega, by omega, by omega, by omega⟩
  · rcases super_verts k hp with ⟨e1, e2⟩ | ⟨e1, e2⟩ | ⟨e1, e2⟩ <;>
      exact ⟨by omega, by omega, by omega, by omega⟩

theorem Ok.close {w h : Nat} (k : SizeOk w h) {p q : Pt} (hp : Ok w h p) (hq : InImg w h q) : Close p q := by
  have hs := side_bounds k
  have := k.w1; have := k.h1; have := k.w2; have := k.h2
  obtain ⟨a', b', c', d'⟩ := hq
  rcases hp with hp | hp
  · obtain ⟨a, b, c, d⟩ := hp
    exact ⟨abs_le.mpr ⟨by omega, by omega⟩, abs_le.mpr ⟨by omega, by omega⟩⟩
  · rcases super_verts k hp with ⟨e1, e2⟩ | ⟨e1, e2⟩ | ⟨e1, e2⟩ <;>
      exact ⟨abs_le.mpr ⟨by omega, by omega⟩, abs_le.mpr ⟨by omega, by omega⟩⟩

/-- No vertex collides with the free-slot marker. -/
theorem Ok.marker {w h : Nat} (k : SizeOk w h) {p : Pt} (hp : Ok w h p) : p.x ≠ -1 := by
  have hs := side_bounds k
  have := k.w1; have := k.h1
  rcases hp with hp | hp
  · have := hp.x1; omega
  · rcases super_verts k hp with ⟨e1, e2⟩ | ⟨e1, e2⟩ | ⟨e1, e2⟩ <;> omega

theorem InImg.hashable {w h : Nat} (k : SizeOk w h) {p : Pt} (hp : InImg w h p) :
    -32768 ≤ p.x ∧ p.x ≤ 32767 ∧ -32768 ≤ p.y ∧ p.y ≤ 32767 ∧ 0 ≤ (53 + p.x) * 53 + p.y := by
  obtain ⟨a, b, c, d⟩ := hp
  have := k.w2; have := k.h2
  omega

/-- The bounding triangle, counterclockwise. -/
theorem super_norm {w h : Nat} (k : SizeOk w h) :
    norm (newSuperTriangle w h) = ⟨toP (newSuperTriangle w h).b, toP (newSuperTriangle w h).a,
      toP (newSuperTriangle w h).c⟩ ∧ 0 < (norm (newSuperTriangle w h)).or := by
  have hs := side_bounds k
  have hneg : ori (toP (newSuperTriangle w h).a) (toP (newSuperTriangle w h).b) (toP (newSuperTriangle w h).c)
      = -12 * (side w h : ℚ) ^ 2 := by
    rw [super_eq k]; unfold ori toP; push_cast; ring
  have hpos : (0 : ℚ) < (side w h : ℚ) ^ 2 := by
    have : (0 : ℚ) < (side w h : ℚ) := by exact_mod_cast (by omega : 0 < side w h)
    positivity
  refine ⟨?_, ?_⟩
  · unfold norm
    rw [if_neg]
    rw [hneg]; linarith
  · rw [norm_or, hneg]
    intro h0; linarith

/-- Every image point is strictly inside the bounding triangle. -/
theorem img_inside {w h : Nat} (k : SizeOk w h) {p : Pt} (hp : InImg w h p) :
    Inside (norm (newSuperTriangle w h)) (toP p) := by
  have hs := side_bounds k
  have w1 := k.w1; have h1 := k.h1
  rw [(super_norm k).1]
  unfold Inside
  simp only
  rw [super_eq k]
  unfold ori toP
  simp only
  obtain ⟨a, b, c, d⟩ := hp
  have q1 : ((w + 1) / 2 : Nat) * 2 ≤ w + 1 := by omega
  have q2 : w ≤ ((w + 1) / 2 : Nat) * 2 := by omega
  have q3 : ((h + 1) / 2 : Nat) * 2 ≤ h + 1 := by omega
  have q4 : h ≤ ((h + 1) / 2 : Nat) * 2 := by omega
  generalize ((w + 1) / 2 : Nat) = X at *
  generalize ((h + 1) / 2 : Nat) = Y at *
  generalize side w h = m at *
  have m0 : (0 : ℚ) < m := by exact_mod_cast (by omega : 0 < m)
  have z1 : (0 : Int) < 2 * (2 * m - (p.y - Y)) + 3 * (p.x - X) := by omega
  have z2 : (0 : Int) < (p.y - Y) + m := by omega
  have z3 : (0 : Int) < 2 * (2 * m - (p.y - Y)) - 3 * (p.x - X) := by omega
  have z1' : (0 : ℚ) < 2 * (2 * m - (p.y - Y)) + 3 * (p.x - X) := by exact_mod_cast z1
  have z2' : (0 : ℚ) < (p.y - Y) + m := by exact_mod_cast z2
  have z3' : (0 : ℚ) < 2 * (2 * m - (p.y - Y)) - 3 * (p.x - X) := by exact_mod_cast z3
  push_cast
  refine ⟨?_, ?_, ?_⟩
  · have := mul_pos m0 z1'
    refine lt_of_lt_of_eq this ?_; ring
  · have := mul_pos m0 z2'
    refine lt_of_lt_of_eq (by positivity : (0:ℚ) < 4 * (m * ((p.y - Y) + m))) ?_; ring
  · have := mul_pos m0 z3'
    refine lt_of_lt_of_eq this ?_; ring

end Verif.Incr

import Verif.Tri.LocalGlobal
import Mathlib.Tactic.Positivity

/-!
# Nearly least scores

The ear queue compares rounded scores.  On lattice points an ear whose score exceeds the least
score by a relative error `ε` still has an empty circumcircle if `ε` is small against the
size of the coordinates.
-/

namespace Verif.Tri

/-- Squared distance. -/
def nsq (a b : P2) : ℚ := (a.x - b.x) ^ 2 + (a.y - b.y) ^ 2

theorem nsq_nonneg (a b : P2) : 0 ≤ nsq a b := by unfold nsq; positivity

/-- Points `G` such that four of them that are not on a circle are far from being on a circle: the
in-circle determinant is not small against a squared distance times an area, reduced by the part of
the chord through `b` and `p` that is behind `p`. -/
structure Lat (G : P2 → Prop) (p : P2) (B : ℚ) : Prop where
  quad : ∀ a b c v, G a → G b → G c → G v → 0 < ori a b c → 0 < inc a b c v → 0 < inc a b c p →
    nsq b v * ori a b c * inc a b c p ≤ B * (inc a b c v * (inc a b c p + nsq b p * ori a b c))

/-- The in-circle determinant seen from the fourth point. -/
theorem inc_eq_sum (a b c p : P2) :
    inc a b c p = nsq a p * ori p b c + nsq b p * ori p c a + nsq c p * ori p a b := by
  unfold inc nsq ori; ring

/-- The in-circle determinant seen from the second point. -/
theorem inc_tip (a b c p : P2) :
    inc a b c p = nsq a b * ori b c p + nsq b c * ori a b p - nsq b p * ori a b c := by
  unfold inc nsq ori; ring

theorem score_inc {p a b c : P2} (h : 0 < ori a b c) : ori a b c * score p a b c = inc a b c p := by
  have := T3.pow_inc ⟨a, b, c⟩ h.ne' p
  change ori a b c * (pwT a b c).ev p = - inc a b c p at this
  unfold score
  linarith

/-- If the ear at level `σ` supports `v` but the circle of the ear does not, then `p` is close to
the edge. -/
theorem close_edge {p a b c v : P2} {σ κ : ℚ} (ho : 0 < ori a b c) {u w : P2} (hu : (pwT a b c).ev u = 0)
    (hw : (pwT a b c).ev w = 0) (h1 : 0 < ori p u w) (h0 : σ ≤ score p a b c)
    (hs : score p a b c - σ ≤ κ * score p a b c) (hsupp : 0 ≤ (cq p σ u w).ev v)
    (hneg : (pwT a b c).ev v < 0) :
    0 < inc a b c v ∧ 0 < ori u w v ∧ ori p u w * inc a b c v ≤ κ * inc a b c p * ori u w v := by
  have e1 := T3.pow_inc ⟨a, b, c⟩ ho.ne' v
  change ori a b c * (pwT a b c).ev v = - inc a b c v at e1
  have i1 : 0 < inc a b c v := by have := mul_neg_of_pos_of_neg ho hneg; linarith
  have d := Pw.diff_edge (cq p σ u w) (pwT a b c) u w v p (cq_u σ h1.ne') (cq_v σ h1.ne') hu hw
  rw [cq_p σ h1.ne', ori_rot] at d
  have e2 : -σ - (pwT a b c).ev p = score p a b c - σ := by unfold score; ring
  rw [e2] at d
  have d2 : ori p u w * inc a b c v ≤ ori a b c * (ori u w v * (score p a b c - σ)) := by
    rw [← d]
    have t1 := mul_nonneg ho.le (mul_nonneg h1.le hsupp)
    have t2 : ori p u w * inc a b c v = - (ori p u w * (ori a b c * (pwT a b c).ev v)) := by rw [e1]; ring
    linarith
  have d3 : 0 < ori u w v := by
    have t := pos_of_mul_pos_right ((mul_pos h1 i1).trans_le d2) ho.le
    exact pos_of_mul_pos_left t (by linarith)
  refine ⟨i1, d3, d2.trans ?_⟩
  rw [← score_inc ho]
  calc ori a b c * (ori u w v * (score p a b c - σ)) ≤ ori a b c * (ori u w v * (κ * score p a b c)) :=
        mul_le_mul_of_nonneg_left (mul_le_mul_of_nonneg_left hs d3.le) ho.le
    _ = _ := by ring

/-- The contradiction in the theorems below. -/
theorem near_false {I D V P O κ B : ℚ} (hk : 0 ≤ κ) (hB : κ * (B + 1) < 1) (hI : 0 < I) (hD : 0 < D) (hP : 0 ≤ P * O)
    (h : D * (I + P * O) ≤ κ * I * (D + V * O)) (q : V * O * I ≤ B * (D * (I + P * O))) : False := by
  have t1 := mul_le_mul_of_nonneg_left q hk
  have t2 := mul_nonneg (mul_nonneg hk hP) hD.le
  have t3 : κ * (B + 1) * (D * (I + P * O)) < 1 * (D * (I + P * O)) :=
    mul_lt_mul_of_pos_right hB (mul_pos hD (by linarith))
  linarith

/-- An ear with both edges seen from `p`. -/
theorem near_two {G : P2 → Prop} {B : ℚ} {p : P2} (L : Lat G p B) {a b c v : P2} {σ κ : ℚ} (ha : G a)
    (hb : G b) (hc : G c) (hv : G v) (hk : 0 ≤ κ) (hB : κ * (B + 1) < 1) (ho : 0 < ori a b c)
    (h1 : 0 < ori p a b) (h2 : 0 < ori p b c) (h0 : σ ≤ score p a b c)
    (hs : score p a b c - σ ≤ κ * score p a b c) (s1 : 0 ≤ (cq p σ a b).ev v)
    (s2 : 0 ≤ (cq p σ b c).ev v) : 0 ≤ (pwT a b c).ev v := by
  by_contra hneg
  push Not at hneg
  obtain ⟨hD, o1, z⟩ := close_edge ho (pwT_a _ _ _) (pwT_b _ _ _ ho.ne') h1 h0 hs s1 hneg
  obtain ⟨-, o2, x⟩ := close_edge ho (pwT_b _ _ _ ho.ne') (pwT_c _ _ _ ho.ne') h2 h0 hs s2 hneg
  have q := L.quad a b c v ha hb hc hv ho hD
  have eI := inc_tip a b c p
  have eD := inc_tip a b c v
  rw [ori_rot p b c, ori_rot p a b] at eI
  set I := inc a b c p with hI
  set D := inc a b c v with hDd
  have kI : 0 < κ * I := by
    have : 0 < κ * I * ori a b v := (mul_pos h1 hD).trans_le z
    exact pos_of_mul_pos_left this o1.le
  have hIpos : 0 < I := pos_of_mul_pos_right kI hk
  have t1 := mul_le_mul_of_nonneg_left x (nsq_nonneg a b)
  have t2 := mul_le_mul_of_nonneg_left z (nsq_nonneg b c)
  refine near_false hk hB hIpos hD (mul_nonneg (nsq_nonneg b p) ho.le) ?_ (q hIpos)
  have e : D * (I + nsq b p * ori a b c) = nsq a b * (ori p b c * D) + nsq b c * (ori p a b * D) := by
    rw [eI]; ring
  have e' : κ * I * (D + nsq b v * ori a b c) = nsq a b * (κ * I * ori b c v) + nsq b c * (κ * I * ori a b v) := by
    rw [eD]; ring
  linarith

/-- Common part of the ears at the closing edge: the tip `b` of the ear is on the closing edge `a b`. -/
theorem near_one {G : P2 → Prop} {B : ℚ} {p : P2} (L : Lat G p B) {a b c v : P2} {κ x m : ℚ} (ha : G a) (hb : G b)
    (hc : G c) (hv : G v) (hk : 0 ≤ κ) (hB : κ * (B + 1) < 1) (ho : 0 < ori a b c) (hD : 0 < inc a b c v)
    (hx : 0 < x) {n : ℚ} (hn : 0 ≤ n) (hm : 0 < m) (hle : x * inc a b c v ≤ κ * inc a b c p * m)
    (hI : inc a b c p + nsq b p * ori a b c ≤ n * x) (hM : n * m ≤ inc a b c v + nsq b v * ori a b c) : False := by
  have kI : 0 < κ * inc a b c p := by
    have : 0 < κ * inc a b c p * m := (mul_pos hx hD).trans_le hle
    exact pos_of_mul_pos_left this hm.le
  have hIpos : 0 < inc a b c p := pos_of_mul_pos_right kI hk
  refine near_false hk hB hIpos hD (mul_nonneg (nsq_nonneg b p) ho.le) ?_ (L.quad a b c v ha hb hc hv ho hD hIpos)
  have t1 := mul_le_mul_of_nonneg_left hI hD.le
  have t2 := mul_le_mul_of_nonneg_left hle hn
  have t3 := mul_le_mul_of_nonneg_left hM kI.le
  linarith

/-- Behind the closing edge: a corner inside the circle of the ear is on the same side as the ear. -/
theorem behind {a c d v q : P2} {f A : ℚ} (hA : 0 < A) (g1 : 0 ≤ (pwT a q c).ev d) (g2 : 0 ≤ (pwT a q c).ev v)
    (hneg : f < 0) (hdiff : A * (f - (pwT a q c).ev v) = - (ori a c v * (pwT a q c).ev d)) : 0 < ori a c v := by
  have : A * (f - (pwT a q c).ev v) < 0 := mul_neg_of_pos_of_neg hA (by linarith)
  exact pos_of_mul_pos_left (show 0 < ori a c v * (pwT a q c).ev d by linarith) g1

/-- An ear `a c d` at the closing edge `a c`. -/
theorem near_left {G : P2 → Prop} {B : ℚ} {p : P2} (L : Lat G p B) {a c d v q : P2} {σ κ : ℚ} (ha : G a)
    (hc : G c) (hd : G d) (hv : G v) (hk : 0 ≤ κ) (hB : κ * (B + 1) < 1) (ho : 0 < ori a c d)
    (hq0 : 0 < ori a q c) (h0 : σ ≤ score p a c d)
    (hs2 : score p a c d - σ ≤ κ * score p a c d) (hy : 0 ≤ ori p c a) (hx : 0 < ori p c d)
    (g1 : 0 ≤ (pwT a q c).ev d) (g2 : 0 ≤ (pwT a q c).ev v)
    (s2 : 0 ≤ (cq p σ c d).ev v) : 0 ≤ (pwT a c d).ev v := by
  by_contra hneg
  push Not at hneg
  obtain ⟨hD, om, x⟩ := close_edge ho (pwT_b _ _ _ ho.ne') (pwT_c _ _ _ ho.ne') hx h0 hs2 s2 hneg
  have ov : 0 < ori a c v := behind ho g1 g2 hneg (by
    have d := Pw.diff_edge (pwT a c d) (pwT a q c) a c v d (pwT_a _ _ _) (pwT_b _ _ _ ho.ne') (pwT_a _ _ _)
      (pwT_c _ _ _ hq0.ne')
    rw [pwT_c _ _ _ ho.ne'] at d
    linarith)
  refine near_one L ha hc hd hv hk hB ho hD hx (nsq_nonneg a c) om x ?_ ?_
  · have e := inc_tip a c d p
    have e1 : ori a c p = - ori p c a := by unfold ori; ring
    rw [ori_rot p c d, e1] at e
    have := mul_nonneg (nsq_nonneg c d) hy
    linarith
  · have e := inc_tip a c d v
    have := mul_nonneg (nsq_nonneg c d) ov.le
    linarith

/-- An ear `d a c` at the closing edge `a c`. -/
theorem near_right {G : P2 → Prop} {B : ℚ} {p : P2} (L : Lat G p B) {a c d v q : P2} {σ κ : ℚ} (ha : G a)
    (hc : G c) (hd : G d) (hv : G v) (hk : 0 ≤ κ) (hB : κ * (B + 1) < 1) (ho : 0 < ori d a c)
    (hq0 : 0 < ori a q c) (h0 : σ ≤ score p d a c)
    (hs2 : score p d a c - σ ≤ κ * score p d a c) (hy : 0 ≤ ori p c a) (hx : 0 < ori p d a)
    (g1 : 0 ≤ (pwT a q c).ev d) (g2 : 0 ≤ (pwT a q c).ev v)
    (s2 : 0 ≤ (cq p σ d a).ev v) : 0 ≤ (pwT d a c).ev v := by
  by_contra hneg
  push Not at hneg
  obtain ⟨hD, om, x⟩ := close_edge ho (pwT_a _ _ _) (pwT_b _ _ _ ho.ne') hx h0 hs2 s2 hneg
  have eo : ori d a c = ori a c d := (ori_rot d a c).symm
  have ov : 0 < ori a c v := behind ho g1 g2 hneg (by
    have d' := Pw.diff_edge (pwT d a c) (pwT a q c) a c v d (pwT_b _ _ _ ho.ne') (pwT_c _ _ _ ho.ne') (pwT_a _ _ _)
      (pwT_c _ _ _ hq0.ne')
    rw [pwT_a, ← eo] at d'
    linarith)
  refine near_one L hd ha hc hv hk hB ho hD hx (nsq_nonneg a c) om x ?_ ?_
  · have e := inc_tip d a c p
    have e1 : ori a c p = - ori p c a := by unfold ori; ring
    rw [ori_rot p d a, e1] at e
    have := mul_nonneg (nsq_nonneg d a) hy
    linarith
  · have e := inc_tip d a c v
    have := mul_nonneg (nsq_nonneg d a) ov.le
    linarith

/-- A corner seen behind the closing edge is strictly beyond it, and the ear there has a smaller
score than the triangle in front of the edge. -/
theorem closing_ear {p a c d q : P2} (hq0 : 0 < ori a q c) (hs : 0 < score p a q c) (hy : 0 ≤ ori p c a)
    (hx : 0 < ori p c d) (hz : 0 < ori p d a) (g1 : 0 ≤ (pwT a q c).ev d) :
    0 < ori a c d ∧ score p a c d ≤ score p a q c := by
  have ho : 0 < ori a c d := by
    by_contra hle
    push Not at hle
    have k : 0 ≤ ori c a d := by rw [ori_swap12]; linarith
    have hc := Pw.conv (pwT a q c) p c a d
    have ez : ori a p d = ori p d a := by unfold ori; ring
    rw [pwT_a, pwT_c _ _ _ hq0.ne', ez] at hc
    have e : (pwT a q c).ev p = - score p a q c := by unfold score; ring
    rw [e] at hc
    have hac := (ne_of_ori_pos hq0).2.2
    have dpos : 0 < (c.x - a.x) ^ 2 + (c.y - a.y) ^ 2 := by
      rcases eq_or_ne c.x a.x with hxx | hxx
      · have hyy : c.y - a.y ≠ 0 := fun h0 => hac (by ext <;> linarith)
        have := sq_pos_of_ne_zero hyy
        have := sq_nonneg (c.x - a.x)
        linarith
      · have := sq_pos_of_ne_zero (sub_ne_zero.mpr hxx)
        have := sq_nonneg (c.y - a.y)
        linarith
    have t1 := mul_nonneg (mul_nonneg hy hy) g1
    have t2 := mul_nonneg hy (mul_nonneg k hs.le)
    have t3 := mul_nonneg (mul_nonneg k hz.le) (show 0 ≤ (p.x - c.x) ^ 2 + (p.y - c.y) ^ 2 by positivity)
    have t4 := mul_pos (mul_pos hz hx) dpos
    have t5 := mul_nonneg (mul_nonneg hx.le k) (show 0 ≤ (a.x - p.x) ^ 2 + (a.y - p.y) ^ 2 by positivity)
    linarith
  refine ⟨ho, ?_⟩
  have d' := Pw.diff_edge (pwT a c d) (pwT a q c) a c p d (pwT_a _ _ _) (pwT_b _ _ _ ho.ne') (pwT_a _ _ _)
    (pwT_c _ _ _ hq0.ne')
  rw [pwT_c _ _ _ ho.ne', ori_rot p a c, ori_swap23 p] at d'
  have t := mul_nonneg hy g1
  have : 0 ≤ ori a c d * ((pwT a c d).ev p - (pwT a q c).ev p) := by linarith
  have := nonneg_of_mul_nonneg_right this ho
  unfold score
  linarith

end Verif.Tri

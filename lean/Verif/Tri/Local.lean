import Verif.Tri.Unique

/-!
# Empty circles at a vertex

Every triangle on points of a Delaunay triangulation whose circumcircle is empty shares its circle, at each of its vertices, with a
triangle of the triangulation having that vertex.
-/

namespace Verif.Tri

/-- A location near `q`, inside the angle `u q v`. -/
def nearBy (q u v : P2) (e : ℚ) : P2 :=
  ⟨(1 - 2 * e) * q.x + e * u.x + e * v.x, (1 - 2 * e) * q.y + e * u.y + e * v.y⟩

theorem nearBy_ori (q u v : P2) (e : ℚ) (a b : P2) :
    ori a b (nearBy q u v e) = (1 - 2 * e) * ori a b q + e * ori a b u + e * ori a b v := by
  unfold ori nearBy; simp only; ring

theorem edge_far (q u v a b : P2) : ∃ e0 : ℚ, 0 < e0 ∧ ∀ e, 0 < e → e ≤ e0 → 0 ≤ ori a b (nearBy q u v e) → 0 ≤ ori a b q := by
  by_cases h : 0 ≤ ori a b q
  · exact ⟨1, one_pos, fun _ _ _ _ => h⟩
  · obtain ⟨e0, h0, h1⟩ := small_step (- ori a b q) (2 * ori a b q - ori a b u - ori a b v) (by linarith)
    refine ⟨e0, h0, fun e a1 a2 a3 => ?_⟩
    have := h1 e a1 a2
    rw [nearBy_ori] at a3
    linarith

theorem tri_far (q u v : P2) (t : T3) : ∃ e0 : ℚ, 0 < e0 ∧ ∀ e, 0 < e → e ≤ e0 → HalfOpen t (nearBy q u v e) →
    0 ≤ ori t.a t.b q ∧ 0 ≤ ori t.b t.c q ∧ 0 ≤ ori t.c t.a q := by
  obtain ⟨e1, p1, k1⟩ := edge_far q u v t.a t.b
  obtain ⟨e2, p2, k2⟩ := edge_far q u v t.b t.c
  obtain ⟨e3, p3, k3⟩ := edge_far q u v t.c t.a
  refine ⟨min e1 (min e2 e3), lt_min p1 (lt_min p2 p3), fun e a1 a2 hh => ?_⟩
  have b1 := a2.trans (min_le_left _ _)
  have b2 := a2.trans ((min_le_right _ _).trans (min_le_left _ _))
  have b3 := a2.trans ((min_le_right _ _).trans (min_le_right _ _))
  exact ⟨k1 e a1 b1 (onLeft_nonneg hh.1), k2 e a1 b2 (onLeft_nonneg hh.2.1), k3 e a1 b3 (onLeft_nonneg hh.2.2)⟩

theorem all_far (q u v : P2) (T : List T3) : ∃ e0 : ℚ, 0 < e0 ∧ ∀ t ∈ T, ∀ e, 0 < e → e ≤ e0 → HalfOpen t (nearBy q u v e) →
    0 ≤ ori t.a t.b q ∧ 0 ≤ ori t.b t.c q ∧ 0 ≤ ori t.c t.a q := by
  induction T with
  | nil => exact ⟨1, one_pos, by simp⟩
  | cons t T ih =>
    obtain ⟨e1, p1, k1⟩ := ih
    obtain ⟨e2, p2, k2⟩ := tri_far q u v t
    refine ⟨min e1 e2, lt_min p1 p2, fun t' ht' e a1 a2 hh => ?_⟩
    rcases List.mem_cons.mp ht' with rfl | ht'
    · exact k2 e a1 (a2.trans (min_le_right _ _)) hh
    · exact k1 t' ht' e a1 (a2.trans (min_le_left _ _)) hh

theorem circle_at {s : T3} {V : P2 → Prop} {T : List T3} (I : Inv s V T) {q u v : P2} (hpos : 0 < ori q u v)
    (hV : ∀ y, y = q ∨ y = u ∨ y = v → V y ∨ s.Has y)
    (del : ∀ y, V y ∨ s.Has y → 0 ≤ (⟨q, u, v⟩ : T3).pow y) :
    ∃ t' ∈ T, t'.Has q ∧ ∀ x, (⟨q, u, v⟩ : T3).pow x = t'.pow x := by
  set t : T3 := ⟨q, u, v⟩ with ht
  have hpt : 0 < t.or := hpos
  obtain ⟨e0, p0, k0⟩ := all_far q u v T
  set e := min e0 (1 / 3) with he
  have ep : 0 < e := lt_min p0 (by norm_num)
  have e3 : e ≤ 1 / 3 := min_le_right _ _
  have w0 : 0 < 1 - 2 * e := by linarith
  set x := nearBy q u v e with hx
  -- inside the bounding triangle
  have hin : ∀ a b, (a, b) ∈ s.edges → 0 < ori a b x := by
    intro a b hab
    have n1 := I.super_edge_nonneg hab (hV q (Or.inl rfl))
    have n2 := I.super_edge_nonneg hab (hV u (Or.inr (Or.inl rfl)))
    have n3 := I.super_edge_nonneg hab (hV v (Or.inr (Or.inr rfl)))
    rw [hx, nearBy_ori]
    have m1 := mul_nonneg w0.le n1
    have m2 := mul_nonneg ep.le n2
    have m3 := mul_nonneg ep.le n3
    by_contra hn
    have z1 : ori a b q = 0 := by
      have : (1 - 2 * e) * ori a b q = 0 := by linarith
      exact (mul_eq_zero.mp this).resolve_left w0.ne'
    have z2 : ori a b u = 0 := by
      have : e * ori a b u = 0 := by linarith
      exact (mul_eq_zero.mp this).resolve_left ep.ne'
    have z3 : ori a b v = 0 := by
      have : e * ori a b v = 0 := by linarith
      exact (mul_eq_zero.mp this).resolve_left ep.ne'
    have hab' : a ≠ b := by
      obtain ⟨c, hc⟩ := (s.mem_edges_iff a b).mp hab
      have := I.sccw
      rw [hc.or_eq] at this
      exact (ne_of_ori_pos this).1
    have i1 : ori q u v * (b.x - a.x) = (u.x - q.x) * (ori a b v - ori a b q) - (v.x - q.x) * (ori a b u - ori a b q) := by
      unfold ori; ring
    have i2 : ori q u v * (b.y - a.y) = (u.y - q.y) * (ori a b v - ori a b q) - (v.y - q.y) * (ori a b u - ori a b q) := by
      unfold ori; ring
    rw [z1, z2, z3] at i1 i2
    have j1 : b.x - a.x = 0 := (mul_eq_zero.mp (i1.trans (by ring))).resolve_left hpos.ne'
    have j2 : b.y - a.y = 0 := (mul_eq_zero.mp (i2.trans (by ring))).resolve_left hpos.ne'
    exact hab' (by ext <;> linarith)
  have hs : HalfOpen s x := HalfOpen.of_interior (hin _ _ (by simp [T3.edges])) (hin _ _ (by simp [T3.edges]))
    (hin _ _ (by simp [T3.edges]))
  obtain ⟨t', ht', hq⟩ := I.exists_half hs
  obtain ⟨c1, c2, c3⟩ := k0 t' ht' e ep (min_le_left _ _) hq
  have hpos' := I.ccw t' ht'
  have b : t.pow x - t'.pow x = (1 - 2 * e) * (t.pow q - t'.pow q) + e * (t.pow u - t'.pow u) + e * (t.pow v - t'.pow v) := by
    unfold T3.pow Pw.ev
    rw [hx]
    unfold nearBy
    simp only
    ring
  have b' := Pw.bary (pwT t.a t.b t.c) (pwT t'.a t'.b t'.c) t'.a t'.b t'.c x
  change t'.or * (t.pow x - t'.pow x) = ori t'.b t'.c x * (t.pow t'.a - t'.pow t'.a) +
    ori t'.c t'.a x * (t.pow t'.b - t'.pow t'.b) + ori t'.a t'.b x * (t.pow t'.c - t'.pow t'.c) at b'
  have ha : t.Has q := Or.inl rfl
  have hb : t.Has u := Or.inr (Or.inl rfl)
  have hc : t.Has v := Or.inr (Or.inr rfl)
  have ha' : t'.Has t'.a := Or.inl rfl
  have hb' : t'.Has t'.b := Or.inr (Or.inl rfl)
  have hc' : t'.Has t'.c := Or.inr (Or.inr rfl)
  have D : ∀ y, (y = q ∨ y = u ∨ y = v) → 0 ≤ t'.pow y := fun y hy => I.del t' ht' y (hV y hy)
  have D' : ∀ y, t'.Has y → 0 ≤ t.pow y := fun y hy => del y (I.verts t' ht' y hy)
  rw [t.pow_vertex hpt.ne' ha, t.pow_vertex hpt.ne' hb, t.pow_vertex hpt.ne' hc] at b
  rw [t'.pow_vertex hpos'.ne' ha', t'.pow_vertex hpos'.ne' hb', t'.pow_vertex hpos'.ne' hc'] at b'
  have k1 := mul_nonneg (onLeft_nonneg hq.2.1) (D' _ ha')
  have k2 := mul_nonneg (onLeft_nonneg hq.2.2) (D' _ hb')
  have k3 := mul_nonneg (onLeft_nonneg hq.1) (D' _ hc')
  have g1 : 0 ≤ t.pow x - t'.pow x := by
    have : 0 ≤ t'.or * (t.pow x - t'.pow x) := by rw [b']; linarith
    exact nonneg_of_mul_nonneg_right this hpos'
  have e1 := mul_nonneg w0.le (D q (Or.inl rfl))
  have e2 := mul_nonneg ep.le (D u (Or.inr (Or.inl rfl)))
  have e3' := mul_nonneg ep.le (D v (Or.inr (Or.inr rfl)))
  have z1 : t'.pow q = 0 := (mul_eq_zero.mp (by linarith : (1 - 2 * e) * t'.pow q = 0)).resolve_left w0.ne'
  have z2 : t'.pow u = 0 := (mul_eq_zero.mp (by linarith : e * t'.pow u = 0)).resolve_left ep.ne'
  have z3 : t'.pow v = 0 := (mul_eq_zero.mp (by linarith : e * t'.pow v = 0)).resolve_left ep.ne'
  refine ⟨t', ht', (t'.pow_closed hpos' q c1 c2 c3).2 z1, fun y => ?_⟩
  refine Pw.unique _ _ q u v hpos.ne' ?_ ?_ ?_ y
  · exact (t.pow_vertex hpt.ne' ha).trans z1.symm
  · exact (t.pow_vertex hpt.ne' hb).trans z2.symm
  · exact (t.pow_vertex hpt.ne' hc).trans z3.symm

end Verif.Tri

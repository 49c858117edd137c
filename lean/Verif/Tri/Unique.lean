import Verif.Tri.Inv

/-!
# Two Delaunay triangulations of the same points have the same circles
-/

namespace Verif.Tri

/-- Centroid. -/
def T3.mid (t : T3) : P2 := ⟨(t.a.x + t.b.x + t.c.x) / 3, (t.a.y + t.b.y + t.c.y) / 3⟩

theorem T3.mid_ori (t : T3) :
    ori t.a t.b t.mid = t.or / 3 ∧ ori t.b t.c t.mid = t.or / 3 ∧ ori t.c t.a t.mid = t.or / 3 := by
  unfold T3.mid T3.or ori
  simp only
  refine ⟨?_, ?_, ?_⟩ <;> ring

theorem T3.mid_half (t : T3) (h : 0 < t.or) : HalfOpen t t.mid := by
  obtain ⟨h1, h2, h3⟩ := t.mid_ori
  exact HalfOpen.of_interior (by rw [h1]; linarith) (by rw [h2]; linarith) (by rw [h3]; linarith)

/-- Circles agree. -/
theorem same_circle {s : T3} {V : P2 → Prop} {T T' : List T3} (I : Inv s V T) (I' : Inv s V T')
    {t : T3} (ht : t ∈ T) : ∃ t' ∈ T', HalfOpen t' t.mid ∧ ∀ x, t.pow x = t'.pow x := by
  have hpos := I.ccw t ht
  have hmid := t.mid_half hpos
  have hs : HalfOpen s t.mid := by
    by_contra hn
    have := partition I.sccw I.ccw I.chain t.mid
    rw [if_neg hn, List.countP_eq_zero] at this
    exact this t ht (by simpa using hmid)
  obtain ⟨t', ht', hq⟩ := I'.exists_half hs
  refine ⟨t', ht', hq, fun x => ?_⟩
  have hpos' := I'.ccw t' ht'
  have b := Pw.bary (pwT t.a t.b t.c) (pwT t'.a t'.b t'.c) t.a t.b t.c t.mid
  have b' := Pw.bary (pwT t.a t.b t.c) (pwT t'.a t'.b t'.c) t'.a t'.b t'.c t.mid
  obtain ⟨m1, m2, m3⟩ := t.mid_ori
  rw [m1, m2, m3] at b
  change t.or * (t.pow t.mid - t'.pow t.mid) = t.or / 3 * (t.pow t.a - t'.pow t.a) +
    t.or / 3 * (t.pow t.b - t'.pow t.b) + t.or / 3 * (t.pow t.c - t'.pow t.c) at b
  change t'.or * (t.pow t.mid - t'.pow t.mid) = ori t'.b t'.c t.mid * (t.pow t'.a - t'.pow t'.a) +
    ori t'.c t'.a t.mid * (t.pow t'.b - t'.pow t'.b) +
    ori t'.a t'.b t.mid * (t.pow t'.c - t'.pow t'.c) at b'
  have ha : t.Has t.a := Or.inl rfl
  have hb : t.Has t.b := Or.inr (Or.inl rfl)
  have hc : t.Has t.c := Or.inr (Or.inr rfl)
  have ha' : t'.Has t'.a := Or.inl rfl
  have hb' : t'.Has t'.b := Or.inr (Or.inl rfl)
  have hc' : t'.Has t'.c := Or.inr (Or.inr rfl)
  have D : ∀ y, t.Has y → 0 ≤ t'.pow y := fun y hy => I'.del t' ht' y (I.verts t ht y hy)
  have D' : ∀ y, t'.Has y → 0 ≤ t.pow y := fun y hy => I.del t ht y (I'.verts t' ht' y hy)
  rw [t.pow_vertex hpos.ne' ha, t.pow_vertex hpos.ne' hb, t.pow_vertex hpos.ne' hc] at b
  rw [t'.pow_vertex hpos'.ne' ha', t'.pow_vertex hpos'.ne' hb', t'.pow_vertex hpos'.ne' hc'] at b'
  have k1 := mul_nonneg (onLeft_nonneg hq.2.1) (D' _ ha')
  have k2 := mul_nonneg (onLeft_nonneg hq.2.2) (D' _ hb')
  have k3 := mul_nonneg (onLeft_nonneg hq.1) (D' _ hc')
  have g1 : 0 ≤ t.pow t.mid - t'.pow t.mid := by
    have : 0 ≤ t'.or * (t.pow t.mid - t'.pow t.mid) := by rw [b']; linarith
    exact nonneg_of_mul_nonneg_right this hpos'
  have g2 := mul_nonneg hpos.le g1
  have e1 := mul_nonneg hpos.le (D _ ha)
  have e2 := mul_nonneg hpos.le (D _ hb)
  have e3 := mul_nonneg hpos.le (D _ hc)
  have z : ∀ r, t.or * t'.pow r = 0 → t'.pow r = 0 :=
    fun r h => (mul_eq_zero.mp h).resolve_left hpos.ne'
  have z1 := z t.a (by linarith)
  have z2 := z t.b (by linarith)
  have z3 := z t.c (by linarith)
  refine Pw.unique _ _ t.a t.b t.c hpos.ne' ?_ ?_ ?_ x
  · exact (t.pow_vertex hpos.ne' ha).trans z1.symm
  · exact (t.pow_vertex hpos.ne' hb).trans z2.symm
  · exact (t.pow_vertex hpos.ne' hc).trans z3.symm

/-- General position: no circle through three non-collinear points of `W` contains a fourth. -/
def GenPos (W : P2 → Prop) : Prop :=
  ∀ a b c d, W a → W b → W c → W d → ori a b c ≠ 0 → inc a b c d = 0 → d = a ∨ d = b ∨ d = c

/-- In general position the triangles agree (up to the choice of the first vertex). -/
theorem same_triangle {s : T3} {V : P2 → Prop} {T T' : List T3} (I : Inv s V T) (I' : Inv s V T')
    (g : GenPos (fun x => V x ∨ s.Has x)) {t : T3} (ht : t ∈ T) :
    ∃ t' ∈ T', t'.Rep t.a t.b t.c := by
  obtain ⟨t', ht', hq, hpow⟩ := same_circle I I' ht
  refine ⟨t', ht', ?_⟩
  have hpos := I.ccw t ht
  have hpos' := I'.ccw t' ht'
  have sub : ∀ y, t'.Has y → y = t.a ∨ y = t.b ∨ y = t.c := by
    intro y hy
    have h0 : t.pow y = 0 := by rw [hpow]; exact t'.pow_vertex hpos'.ne' hy
    have hi := t.pow_inc hpos.ne' y
    rw [h0] at hi
    exact g t.a t.b t.c y (I.verts t ht _ (Or.inl rfl)) (I.verts t ht _ (Or.inr (Or.inl rfl)))
      (I.verts t ht _ (Or.inr (Or.inr rfl))) (I'.verts t' ht' y hy) hpos.ne' (by linarith)
  have n' := ne_of_ori_pos hpos'
  have ea := sub t'.a (Or.inl rfl)
  have eb := sub t'.b (Or.inr (Or.inl rfl))
  have ec := sub t'.c (Or.inr (Or.inr rfl))
  obtain ⟨a', b', c'⟩ := t'
  obtain ⟨a, b, c⟩ := t
  simp only [T3.or] at *
  have bad : ∀ x y z : P2, ori x z y = - ori x y z := fun x y z => ori_swap23 x y z
  have r1 := ori_rot a b c
  have r2 := ori_rot' a b c
  rcases ea with rfl | rfl | rfl <;> rcases eb with rfl | rfl | rfl <;> rcases ec with rfl | rfl | rfl
  all_goals first
    | exact absurd rfl n'.1
    | exact absurd rfl n'.2.1
    | exact absurd rfl n'.2.2
    | exact Or.inl rfl
    | exact Or.inr (Or.inl rfl)
    | exact Or.inr (Or.inr rfl)
    | (exfalso
       have q1 := ori_swap23 a' b' c'
       have q2 := ori_swap a' b' c'
       have q3 := ori_rot a' b' c'
       have q4 := ori_rot' a' b' c'
       have q5 := ori_rot a' c' b'
       have q6 := ori_rot' a' c' b'
       linarith)

end Verif.Tri

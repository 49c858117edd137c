import Verif.Tri.Link
import Mathlib.Data.Finset.Max

/-!
# Locally Delaunay tilings are Delaunay

A tiling of the bounding triangle in which no triangle has the opposite vertex of a
neighbour inside its circumcircle has no vertex inside any circumcircle.
-/

namespace Verif.Tri

/-- A tiling of the bounding triangle, without the Delaunay property. -/
structure Tiling (s : T3) (T : List T3) : Prop where
  sccw : 0 < s.or
  ccw : Ccw T
  chain : Chain s T

/-- No triangle has the opposite vertex of a neighbour inside its circumcircle. -/
def LocDel (T : List T3) : Prop :=
  ∀ t ∈ T, ∀ t' ∈ T, ∀ u v w w', t.Rep u v w → t'.Rep v u w' → 0 ≤ t.pow w'

theorem ori_swap12 (a b c : P2) : ori b a c = - ori a b c := by unfold ori; ring

/-- The local condition is symmetric. -/
theorem locDel_symm {t t' : T3} (h : 0 < t.or) (h' : 0 < t'.or) {u v w w' : P2} (r : t.Rep u v w)
    (r' : t'.Rep v u w') (k : 0 ≤ t.pow w') : 0 ≤ t'.pow w := by
  have o := h
  have o' := h'
  rw [r.or_eq] at o
  rw [r'.or_eq] at o'
  have e := Pw.diff_edge (pwT t'.a t'.b t'.c) (pwT t.a t.b t.c) u v w w'
    (t'.pow_vertex h'.ne' ((r'.has_iff u).mpr (by simp))) (t'.pow_vertex h'.ne' ((r'.has_iff v).mpr (by simp)))
    (t.pow_vertex h.ne' ((r.has_iff u).mpr (by simp))) (t.pow_vertex h.ne' ((r.has_iff v).mpr (by simp)))
  change ori u v w' * (t'.pow w - t.pow w) = ori u v w * (t'.pow w' - t.pow w') at e
  rw [t.pow_vertex h.ne' ((r.has_iff w).mpr (by simp)), t'.pow_vertex h'.ne' ((r'.has_iff w').mpr (by simp))] at e
  have sw : ori u v w' = - ori v u w' := by unfold ori; ring
  rw [sw] at e
  have : 0 ≤ ori v u w' * t'.pow w := by
    have := mul_nonneg o.le k
    linarith
  exact nonneg_of_mul_nonneg_right this o'

namespace Tiling

variable {s : T3} {T : List T3}

theorem count_le (I : Tiling s T) (q : P2) : T.countP (fun t => HalfOpen t q) ≤ 1 := by
  rw [partition I.sccw I.ccw I.chain]; split <;> omega

theorem same_of_half (I : Tiling s T) {t u : T3} (ht : t ∈ T) (hu : u ∈ T) {q : P2} (h1 : HalfOpen t q)
    (h2 : HalfOpen u q) : t = u := by
  by_contra hne
  have hp := pairwise_of_count I.count_le
  have sym : Std.Symm (fun t u : T3 => ∀ q, ¬ (HalfOpen t q ∧ HalfOpen u q)) :=
    ⟨fun a b h q k => h q ⟨k.2, k.1⟩⟩
  exact hp.forall ht hu hne q ⟨h1, h2⟩

/-- An edge without its reverse is an edge of the bounding triangle. -/
theorem rev_or_super (I : Tiling s T) {u v : P2} (h : (u, v) ∈ edgesOf T) :
    (v, u) ∈ edgesOf T ∨ (u, v) ∈ s.edges := by
  by_cases hr : (v, u) ∈ edgesOf T
  · exact Or.inl hr
  · right
    have h1 := I.chain _ (Inv.eInd_anti u v)
    rw [tsum_eq_edges, Inv.eInd_sum, List.count_eq_zero.mpr hr] at h1
    have h2 : 0 < (edgesOf T).count (u, v) := List.count_pos_iff.mpr h
    have h3 : esum (Inv.eInd u v) s = (s.edges.count (u, v) : ℤ) - s.edges.count (v, u) := by
      rw [← Inv.eInd_sum]; simp [esum, T3.edges]; ring
    rw [h3] at h1
    have : 0 < s.edges.count (u, v) := by omega
    exact List.count_pos_iff.mp this

end Tiling

/-- Locations close to `x` towards `m` are in the triangle if `m` is on the inner side of the
edges through `x`. -/
theorem half_near {a b c x m : P2} (h1 : 0 < ori a b x ∨ (ori a b x = 0 ∧ 0 < ori a b m))
    (h2 : 0 < ori b c x ∨ (ori b c x = 0 ∧ 0 < ori b c m))
    (h3 : 0 < ori c a x ∨ (ori c a x = 0 ∧ 0 < ori c a m)) :
    ∃ e0 : ℚ, 0 < e0 ∧ ∀ e, 0 < e → e ≤ e0 →
      HalfOpen ⟨a, b, c⟩ ⟨x.x + e * (m.x - x.x), x.y + e * (m.y - x.y)⟩ := by
  have key : ∀ u v : P2, (0 < ori u v x ∨ (ori u v x = 0 ∧ 0 < ori u v m)) → ∃ e0 : ℚ, 0 < e0 ∧ ∀ e, 0 < e → e ≤ e0 →
      0 < ori u v ⟨x.x + e * (m.x - x.x), x.y + e * (m.y - x.y)⟩ := by
    intro u v h
    have e1 : ∀ e : ℚ, ori u v ⟨x.x + e * (m.x - x.x), x.y + e * (m.y - x.y)⟩ =
        ori u v x + e * (ori u v m - ori u v x) := by intro e; unfold ori; simp only; ring
    rcases h with h | ⟨h, k⟩
    · obtain ⟨e0, p, q⟩ := small_step (ori u v x) (ori u v m - ori u v x) h
      exact ⟨e0, p, fun e he hle => by rw [e1]; exact q e he hle⟩
    · refine ⟨1, one_pos, fun e he _ => ?_⟩
      rw [e1, h]
      have := mul_pos he k
      linarith
  obtain ⟨e1, p1, q1⟩ := key a b h1
  obtain ⟨e2, p2, q2⟩ := key b c h2
  obtain ⟨e3, p3, q3⟩ := key c a h3
  refine ⟨min e1 (min e2 e3), lt_min p1 (lt_min p2 p3), fun e he hle => ?_⟩
  exact HalfOpen.of_interior (q1 e he (hle.trans (min_le_left _ _)))
    (q2 e he (hle.trans ((min_le_right _ _).trans (min_le_left _ _))))
    (q3 e he (hle.trans ((min_le_right _ _).trans (min_le_right _ _))))

/-- Two triangles of a tiling that both reach from `x` towards `m` are the same. -/
theorem Tiling.same_of_near {s : T3} {T : List T3} (I : Tiling s T) {t t' : T3} (ht : t ∈ T) (ht' : t' ∈ T)
    {a b c a' b' c' x m : P2} (r : t.Rep a b c) (r' : t'.Rep a' b' c')
    (h1 : 0 < ori a b x ∨ (ori a b x = 0 ∧ 0 < ori a b m))
    (h2 : 0 < ori b c x ∨ (ori b c x = 0 ∧ 0 < ori b c m))
    (h3 : 0 < ori c a x ∨ (ori c a x = 0 ∧ 0 < ori c a m))
    (k1 : 0 < ori a' b' x ∨ (ori a' b' x = 0 ∧ 0 < ori a' b' m))
    (k2 : 0 < ori b' c' x ∨ (ori b' c' x = 0 ∧ 0 < ori b' c' m))
    (k3 : 0 < ori c' a' x ∨ (ori c' a' x = 0 ∧ 0 < ori c' a' m)) : t = t' := by
  obtain ⟨e1, p1, q1⟩ := half_near h1 h2 h3
  obtain ⟨e2, p2, q2⟩ := half_near k1 k2 k3
  exact I.same_of_half ht ht' ((r.half_iff _).mpr (q1 _ (lt_min p1 p2) (min_le_left _ _)))
    ((r'.half_iff _).mpr (q2 _ (lt_min p1 p2) (min_le_right _ _)))

/-- If two of the three coordinates vanish the location is a vertex. -/
theorem closed_cases {a b c x : P2} (h : 0 < ori a b c) (h1 : 0 ≤ ori a b x) (h2 : 0 ≤ ori b c x)
    (h3 : 0 ≤ ori c a x) (n : ¬ (x = a ∨ x = b ∨ x = c)) :
    (0 < ori a b x ∧ 0 < ori b c x ∧ 0 < ori c a x) ∨ (ori a b x = 0 ∧ 0 < ori b c x ∧ 0 < ori c a x) ∨
    (ori b c x = 0 ∧ 0 < ori c a x ∧ 0 < ori a b x) ∨ (ori c a x = 0 ∧ 0 < ori a b x ∧ 0 < ori b c x) := by
  have two : ∀ a b c : P2, 0 < ori a b c → ori a b x = 0 → ori b c x = 0 → x = b := by
    intro a b c h k1 k2
    have hs := ori_sum a b c x
    have bx : ori a b c * x.x = ori b c x * a.x + ori c a x * b.x + ori a b x * c.x := by unfold ori; ring
    have bY : ori a b c * x.y = ori b c x * a.y + ori c a x * b.y + ori a b x * c.y := by unfold ori; ring
    have e : ori c a x = ori a b c := by linarith
    rw [k1, k2, e] at bx bY
    ext
    · exact mul_left_cancel₀ h.ne' (by linarith)
    · exact mul_left_cancel₀ h.ne' (by linarith)
  rcases h1.eq_or_lt with k1 | k1 <;> rcases h2.eq_or_lt with k2 | k2 <;> rcases h3.eq_or_lt with k3 | k3
  · exact (n (Or.inr (Or.inl (two a b c h k1.symm k2.symm)))).elim
  · exact (n (Or.inr (Or.inl (two a b c h k1.symm k2.symm)))).elim
  · exact (n (Or.inl (two c a b (by rw [ori_rot']; exact h) k3.symm k1.symm))).elim
  · exact Or.inr (Or.inl ⟨k1.symm, k2, k3⟩)
  · exact (n (Or.inr (Or.inr (two b c a (by rw [ori_rot]; exact h) k2.symm k3.symm)))).elim
  · exact Or.inr (Or.inr (Or.inl ⟨k2.symm, k3, k1⟩))
  · exact Or.inr (Or.inr (Or.inr ⟨k3.symm, k1, k2⟩))
  · exact Or.inl ⟨k1, k2, k3⟩

/-- A vertex strictly inside the bounding triangle meets a triangle only as its vertex. -/
theorem Tiling.vertex_closed {s : T3} {T : List T3} (I : Tiling s T) {x : P2} (hx : Inside s x)
    (hv : ∃ t ∈ T, t.Has x) {t : T3} (ht : t ∈ T) (h1 : 0 ≤ ori t.a t.b x) (h2 : 0 ≤ ori t.b t.c x)
    (h3 : 0 ≤ ori t.c t.a x) : t.Has x := by
  by_contra hn
  obtain ⟨tx, htx, hxx⟩ := hv
  obtain ⟨u, v, r⟩ := T3.edge_of_has hxx
  have ox := I.ccw tx htx
  rw [r.or_eq] at ox
  have ne : t ≠ tx := by rintro rfl; exact hn hxx
  -- locations of the triangle at `x`
  have loc : ∀ i j : ℚ, 0 < i → 0 < j → ∀ m : P2, m = ⟨x.x + i * (u.x - x.x) + j * (v.x - x.x), x.y + i * (u.y - x.y) + j * (v.y - x.y)⟩ →
      (0 < ori x u x ∨ (ori x u x = 0 ∧ 0 < ori x u m)) ∧ (0 < ori u v x ∨ (ori u v x = 0 ∧ 0 < ori u v m)) ∧
      (0 < ori v x x ∨ (ori v x x = 0 ∧ 0 < ori v x m)) := by
    rintro i j hi hj m rfl
    refine ⟨Or.inr ⟨by simp, ?_⟩, Or.inl (by rw [ori_rot]; exact ox), Or.inr ⟨by simp, ?_⟩⟩
    · have e : ori x u ⟨x.x + i * (u.x - x.x) + j * (v.x - x.x), x.y + i * (u.y - x.y) + j * (v.y - x.y)⟩ = j * ori x u v := by
        unfold ori; simp only; ring
      rw [e]; exact mul_pos hj ox
    · have e : ori v x ⟨x.x + i * (u.x - x.x) + j * (v.x - x.x), x.y + i * (u.y - x.y) + j * (v.y - x.y)⟩ = i * ori x u v := by
        unfold ori; simp only; ring
      rw [e]; exact mul_pos hi ox
  -- a direction off a given line through `x`
  have dir : ∀ α β : P2, α ≠ β → ori α β x = 0 → ∃ m : P2, ori α β m ≠ 0 ∧
      (0 < ori x u x ∨ (ori x u x = 0 ∧ 0 < ori x u m)) ∧ (0 < ori u v x ∨ (ori u v x = 0 ∧ 0 < ori u v m)) ∧
      (0 < ori v x x ∨ (ori v x x = 0 ∧ 0 < ori v x m)) := by
    intro α β hab h0
    have lin : ∀ i j : ℚ, ori α β ⟨x.x + i * (u.x - x.x) + j * (v.x - x.x), x.y + i * (u.y - x.y) + j * (v.y - x.y)⟩ =
        i * ori α β u + j * ori α β v + (1 - i - j) * ori α β x := by
      intro i j; unfold ori; simp only; ring
    by_cases k : ori α β u + ori α β v = 0
    · refine ⟨_, ?_, loc 2 1 (by norm_num) (by norm_num) _ rfl⟩
      rw [lin, h0]
      intro k2
      have ku : ori α β u = 0 := by linarith
      have kv : ori α β v = 0 := by linarith
      have e1 : (β.x - α.x) * ori x u v = 0 := by
        have : (β.x - α.x) * ori x u v = (u.x - x.x) * (ori α β v - ori α β x) - (v.x - x.x) * (ori α β u - ori α β x) := by
          unfold ori; ring
        rw [this, h0, ku, kv]; ring
      have e2 : (β.y - α.y) * ori x u v = 0 := by
        have : (β.y - α.y) * ori x u v = (u.y - x.y) * (ori α β v - ori α β x) - (v.y - x.y) * (ori α β u - ori α β x) := by
          unfold ori; ring
        rw [this, h0, ku, kv]; ring
      have f1 := (mul_eq_zero.mp e1).resolve_right ox.ne'
      have f2 := (mul_eq_zero.mp e2).resolve_right ox.ne'
      exact hab (by ext <;> linarith)
    · refine ⟨_, ?_, loc 1 1 (by norm_num) (by norm_num) _ rfl⟩
      rw [lin, h0]
      intro k2
      exact k (by linarith)
  -- an edge of `t` through `x`
  have edge : ∀ α β γ : P2, t.Rep α β γ → ori α β x = 0 → 0 < ori β γ x → 0 < ori γ α x → False := by
    intro α β γ rt k1 k2 k3
    have ot := I.ccw t ht
    rw [rt.or_eq] at ot
    obtain ⟨m, hm, l1, l2, l3⟩ := dir α β (ne_of_ori_pos ot).1 k1
    rcases lt_or_gt_of_ne hm with hm | hm
    · have he : (α, β) ∈ edgesOf T := mem_edgesOf.mpr ⟨t, ht, (rt.edges_iff _).mpr (Or.inl rfl)⟩
      rcases I.rev_or_super he with h | h
      · obtain ⟨t2, ht2, e⟩ := mem_edgesOf.mp h
        obtain ⟨δ, r2⟩ := (t2.mem_edges_iff β α).mp e
        have o2 := I.ccw t2 ht2
        rw [r2.or_eq] at o2
        have i1 : ori β α x = 0 := by rw [ori_swap12, k1]; ring
        have i2 : 0 < ori α δ x := by
          have e : ori α β γ * ori α δ x = ori γ α x * ori β α δ - ori α β x * (ori α δ γ * (-1)) := by unfold ori; ring
          have : 0 < ori α β γ * ori α δ x := by rw [e, k1]; have := mul_pos k3 o2; linarith
          exact pos_of_mul_pos_right this ot.le
        have i3 : 0 < ori δ β x := by
          have e : ori α β γ * ori δ β x = ori β γ x * ori β α δ - ori α β x * (ori δ β γ * (-1)) := by unfold ori; ring
          have : 0 < ori α β γ * ori δ β x := by rw [e, k1]; have := mul_pos k2 o2; linarith
          exact pos_of_mul_pos_right this ot.le
        have hne : t2 ≠ tx := by
          rintro rfl
          rcases (r2.has_iff x).mp hxx with k | k | k
          · exact hn ((rt.has_iff x).mpr (by tauto))
          · exact hn ((rt.has_iff x).mpr (by tauto))
          · subst k; simp at i2
        exact hne (I.same_of_near ht2 htx r2 r (Or.inr ⟨i1, by rw [ori_swap12]; linarith⟩) (Or.inl i2) (Or.inl i3) l1 l2 l3)
      · have := inside_edge hx h
        linarith
    · exact ne (I.same_of_near ht htx rt r (Or.inr ⟨k1, hm⟩) (Or.inl k2) (Or.inl k3) l1 l2 l3)
  rcases closed_cases (I.ccw t ht) h1 h2 h3 hn with ⟨k1, k2, k3⟩ | ⟨k1, k2, k3⟩ | ⟨k1, k2, k3⟩ | ⟨k1, k2, k3⟩
  · obtain ⟨l1, l2, l3⟩ := loc 1 1 (by norm_num) (by norm_num) _ rfl
    exact ne (I.same_of_near ht htx t.rep_self r (Or.inl k1) (Or.inl k2) (Or.inl k3) l1 l2 l3)
  · exact edge _ _ _ t.rep_self k1 k2 k3
  · exact edge _ _ _ t.rep_self.rot k1 k2 k3
  · exact edge _ _ _ t.rep_self.rot.rot k1 k2 k3

/-- A corner of the bounding triangle meets a triangle only as its vertex. -/
theorem corner_closed {s t : T3} (hs : 0 < s.or) (ho : 0 < t.or) (hv : ∀ y, t.Has y → Inside s y ∨ s.Has y)
    {x : P2} (hx : s.Has x) (h1 : 0 ≤ ori t.a t.b x) (h2 : 0 ≤ ori t.b t.c x) (h3 : 0 ≤ ori t.c t.a x) :
    t.Has x := by
  by_contra hn
  obtain ⟨u, v, r⟩ := T3.edge_of_has hx
  have os := hs
  rw [r.or_eq] at os
  have low : ∀ y, t.Has y → ori u v y < ori u v x := by
    intro y hy
    have hu : ori u v x = ori x u v := by unfold ori; ring
    rcases hv y hy with k | k
    · have hsum := ori_sum x u v y
      have g1 := inside_edge k ((r.edges_iff (x, u)).mpr (Or.inl rfl))
      have g2 := inside_edge k ((r.edges_iff (v, x)).mpr (Or.inr (Or.inr rfl)))
      linarith
    · rcases (r.has_iff y).mp k with k | k | k
      · subst k; exact (hn hy).elim
      · subst k; simp; linarith
      · subst k; simp; linarith
  have la := low t.a (Or.inl rfl)
  have lb := low t.b (Or.inr (Or.inl rfl))
  have lc := low t.c (Or.inr (Or.inr rfl))
  have e : t.or * ori u v x = ori t.b t.c x * ori u v t.a + ori t.c t.a x * ori u v t.b + ori t.a t.b x * ori u v t.c := by
    unfold T3.or ori; ring
  have hsum := ori_sum t.a t.b t.c x
  change _ = t.or at hsum
  have g1 := mul_le_mul_of_nonneg_left la.le h2
  have g2 := mul_le_mul_of_nonneg_left lb.le h3
  have g3 := mul_le_mul_of_nonneg_left lc.le h1
  have e2 : t.or * ori u v x = ori t.b t.c x * ori u v x + ori t.c t.a x * ori u v x + ori t.a t.b x * ori u v x := by
    rw [← hsum]; ring
  have z1 : ori t.b t.c x * (ori u v x - ori u v t.a) = 0 := by linarith
  have z2 : ori t.c t.a x * (ori u v x - ori u v t.b) = 0 := by linarith
  have z3 : ori t.a t.b x * (ori u v x - ori u v t.c) = 0 := by linarith
  have y1 := (mul_eq_zero.mp z1).resolve_right (by linarith)
  have y2 := (mul_eq_zero.mp z2).resolve_right (by linarith)
  have y3 := (mul_eq_zero.mp z3).resolve_right (by linarith)
  linarith

/-- Inside a circle, a location beyond one edge of an inscribed triangle is not beyond the next. -/
theorem inscribed {a b c x : P2} (h : 0 < ori a b c) {f : Pw} (fa : f.ev a = 0) (fb : f.ev b = 0)
    (fc : f.ev c = 0) (hx : f.ev x < 0) (h1 : ori b c x < 0) : 0 < ori c a x := by
  by_contra hle
  push Not at hle
  have hc := Pw.conv f a b c x
  rw [fa, fb, fc] at hc
  have hs := ori_sum a b c x
  have hneg : ori a b c * ori a b c * f.ev x < 0 := mul_neg_of_pos_of_neg (mul_pos h h) hx
  set α := ori b c x
  set β := ori c a x
  set γ := ori a b x
  have key : (-α - β) * ((-β) * ((b.x - c.x) ^ 2 + (b.y - c.y) ^ 2) + (-α) * ((c.x - a.x) ^ 2 + (c.y - a.y) ^ 2))
      - (-α) * (-β) * ((a.x - b.x) ^ 2 + (a.y - b.y) ^ 2) =
      ((-β) * (b.x - c.x) - (-α) * (c.x - a.x)) ^ 2 + ((-β) * (b.y - c.y) - (-α) * (c.y - a.y)) ^ 2 := by ring
  have sq : 0 ≤ ((-β) * (b.x - c.x) - (-α) * (c.x - a.x)) ^ 2 + ((-β) * (b.y - c.y) - (-α) * (c.y - a.y)) ^ 2 := by positivity
  have d1 : 0 ≤ (b.x - c.x) ^ 2 + (b.y - c.y) ^ 2 := by positivity
  have d2 : 0 ≤ (c.x - a.x) ^ 2 + (c.y - a.y) ^ 2 := by positivity
  have g : γ = ori a b c + (-α - β) := by linarith
  have e1 : 0 ≤ ori a b c * ((-β) * ((b.x - c.x) ^ 2 + (b.y - c.y) ^ 2) + (-α) * ((c.x - a.x) ^ 2 + (c.y - a.y) ^ 2)) := by
    have i1 := mul_nonneg (show 0 ≤ -β by linarith) d1
    have i2 := mul_nonneg (show 0 ≤ -α by linarith) d2
    exact mul_nonneg h.le (add_nonneg i1 i2)
  rw [g] at hc
  have e2 : ori a b c * ori a b c * f.ev x = ori a b c * ((-β) * ((b.x - c.x) ^ 2 + (b.y - c.y) ^ 2) + (-α) * ((c.x - a.x) ^ 2 + (c.y - a.y) ^ 2))
      + ((-α - β) * ((-β) * ((b.x - c.x) ^ 2 + (b.y - c.y) ^ 2) + (-α) * ((c.x - a.x) ^ 2 + (c.y - a.y) ^ 2))
      - (-α) * (-β) * ((a.x - b.x) ^ 2 + (a.y - b.y) ^ 2)) := by rw [hc]; ring
  rw [e2, key] at hneg
  linarith

/-- How wide the edge `u v` looks from `x` (a cotangent). -/
def cot (x u v : P2) : ℚ := ((u.x - x.x) * (v.x - x.x) + (u.y - x.y) * (v.y - x.y)) / (- ori u v x)

theorem cot_lt_left {x u v w : P2} (h1 : ori u v x < 0) (h2 : ori u w x < 0) (h3 : 0 < ori w v x) :
    cot x u w < cot x u v := by
  unfold cot
  rw [div_lt_div_iff₀ (by linarith) (by linarith)]
  have e : ((u.x - x.x) * (v.x - x.x) + (u.y - x.y) * (v.y - x.y)) * (- ori u w x) -
      ((u.x - x.x) * (w.x - x.x) + (u.y - x.y) * (w.y - x.y)) * (- ori u v x) =
      ((u.x - x.x) ^ 2 + (u.y - x.y) ^ 2) * ori w v x := by unfold ori; ring
  have hne : 0 < (u.x - x.x) ^ 2 + (u.y - x.y) ^ 2 := by
    by_contra hle
    have a1 : (u.x - x.x) ^ 2 = 0 := by nlinarith [sq_nonneg (u.x - x.x), sq_nonneg (u.y - x.y)]
    have a2 : (u.y - x.y) ^ 2 = 0 := by nlinarith [sq_nonneg (u.x - x.x), sq_nonneg (u.y - x.y)]
    have b1 := pow_eq_zero_iff (two_ne_zero) |>.mp a1
    have b2 := pow_eq_zero_iff (two_ne_zero) |>.mp a2
    have : ori u v x = 0 := by
      have : ori u v x = (u.x - x.x) * (v.y - x.y) - (u.y - x.y) * (v.x - x.x) := by unfold ori; ring
      rw [this, b1, b2]; ring
    linarith
  have := mul_pos hne h3
  linarith

theorem cot_lt_right {x u v w : P2} (h1 : ori u v x < 0) (h2 : ori w v x < 0) (h3 : 0 < ori u w x) :
    cot x w v < cot x u v := by
  unfold cot
  rw [div_lt_div_iff₀ (by linarith) (by linarith)]
  have e : ((u.x - x.x) * (v.x - x.x) + (u.y - x.y) * (v.y - x.y)) * (- ori w v x) -
      ((w.x - x.x) * (v.x - x.x) + (w.y - x.y) * (v.y - x.y)) * (- ori u v x) =
      ((v.x - x.x) ^ 2 + (v.y - x.y) ^ 2) * ori u w x := by unfold ori; ring
  have hne : 0 < (v.x - x.x) ^ 2 + (v.y - x.y) ^ 2 := by
    by_contra hle
    have a1 : (v.x - x.x) ^ 2 = 0 := by nlinarith [sq_nonneg (v.x - x.x), sq_nonneg (v.y - x.y)]
    have a2 : (v.y - x.y) ^ 2 = 0 := by nlinarith [sq_nonneg (v.x - x.x), sq_nonneg (v.y - x.y)]
    have b1 := pow_eq_zero_iff (two_ne_zero) |>.mp a1
    have b2 := pow_eq_zero_iff (two_ne_zero) |>.mp a2
    have : ori u v x = 0 := by
      have : ori u v x = (u.x - x.x) * (v.y - x.y) - (u.y - x.y) * (v.x - x.x) := by unfold ori; ring
      rw [this, b1, b2]; ring
    linarith
  have := mul_pos hne h3
  linarith

/-- **Locally Delaunay implies Delaunay.** -/
theorem Tiling.delaunay {s : T3} {T : List T3} {W : P2 → Prop} (I : Tiling s T)
    (hW : ∀ x, W x → Inside s x ∨ s.Has x) (verts : ∀ t ∈ T, ∀ x, t.Has x → W x)
    (hv : ∀ x, W x → Inside s x → ∃ t ∈ T, t.Has x) (loc : LocDel T) :
    ∀ t ∈ T, ∀ x, W x → 0 ≤ t.pow x := by
  classical
  intro t0 ht0 x hx
  by_contra hneg
  push Not at hneg
  -- a closed triangle containing `x` has it as a vertex
  have vtx : ∀ t ∈ T, 0 ≤ ori t.a t.b x → 0 ≤ ori t.b t.c x → 0 ≤ ori t.c t.a x → t.Has x := by
    intro t ht h1 h2 h3
    rcases hW x hx with k | k
    · exact I.vertex_closed k (hv x hx k) ht h1 h2 h3
    · exact corner_closed I.sccw (I.ccw t ht) (fun y hy => hW y (verts t ht y hy)) k h1 h2 h3
  have sup : ∀ u v, (u, v) ∈ s.edges → 0 ≤ ori u v x := by
    intro u v h
    rcases hW x hx with k | k
    · exact (inside_edge k h).le
    · obtain ⟨w, hw⟩ := (s.mem_edges_iff u v).mp h
      have hs := I.sccw
      rw [hw.or_eq] at hs
      rcases (hw.has_iff x).mp k with rfl | rfl | rfl
      · simp
      · simp
      · exact hs.le
  -- the smallest power of `x`
  obtain ⟨t1, ht1, hmin⟩ := Finset.exists_min_image T.toFinset (fun t => t.pow x) ⟨t0, by simpa using ht0⟩
  simp only [List.mem_toFinset] at ht1 hmin
  have hm : t1.pow x < 0 := (hmin t0 ht0).trans_lt hneg
  set E : Finset (P2 × P2) := (edgesOf T).toFinset.filter
    (fun e => (∃ t ∈ T, e ∈ t.edges ∧ t.pow x = t1.pow x) ∧ ori e.1 e.2 x < 0) with hE
  have memE : ∀ t ∈ T, ∀ u v, (u, v) ∈ t.edges → t.pow x = t1.pow x → ori u v x < 0 → (u, v) ∈ E := by
    intro t ht u v he hp ho
    rw [hE, Finset.mem_filter, List.mem_toFinset]
    exact ⟨mem_edgesOf.mpr ⟨t, ht, he⟩, ⟨t, ht, he, hp⟩, ho⟩
  have hne : E.Nonempty := by
    by_contra he
    rw [Finset.not_nonempty_iff_eq_empty] at he
    have no : ∀ u v, (u, v) ∈ t1.edges → 0 ≤ ori u v x := by
      intro u v h
      by_contra hle
      push Not at hle
      have := memE t1 ht1 u v h rfl hle
      rw [he] at this
      simp at this
    have := vtx t1 ht1 (no _ _ (by simp [T3.edges])) (no _ _ (by simp [T3.edges])) (no _ _ (by simp [T3.edges]))
    rw [t1.pow_vertex (I.ccw t1 ht1).ne' this] at hm
    exact lt_irrefl _ hm
  obtain ⟨⟨u, v⟩, huv, hbest⟩ := Finset.exists_min_image E (fun e => cot x e.1 e.2) hne
  rw [hE, Finset.mem_filter] at huv
  obtain ⟨hT, ⟨t, ht, he, hp⟩, ho⟩ := huv
  simp only at ho
  rw [List.mem_toFinset] at hT
  rcases I.rev_or_super hT with h | h
  swap
  · have := sup u v h; linarith
  obtain ⟨t', ht', e'⟩ := mem_edgesOf.mp h
  obtain ⟨w, r'⟩ := (t'.mem_edges_iff v u).mp e'
  obtain ⟨z, r⟩ := (t.mem_edges_iff u v).mp he
  have ot := I.ccw t ht
  have ot' := I.ccw t' ht'
  have o' := ot'
  rw [r'.or_eq] at o'
  have k := loc t ht t' ht' u v z w r r'
  have v1 := t'.pow_vertex ot'.ne' ((r'.has_iff v).mpr (by simp))
  have v2 := t'.pow_vertex ot'.ne' ((r'.has_iff u).mpr (by simp))
  have v3 := t'.pow_vertex ot'.ne' ((r'.has_iff w).mpr (by simp))
  have e := Pw.diff_edge (pwT t'.a t'.b t'.c) (pwT t.a t.b t.c) v u x w v1 v2
    (t.pow_vertex ot.ne' ((r.has_iff v).mpr (by simp))) (t.pow_vertex ot.ne' ((r.has_iff u).mpr (by simp)))
  change ori v u w * (t'.pow x - t.pow x) = ori v u x * (t'.pow w - t.pow w) at e
  rw [v3] at e
  have ox : 0 < ori v u x := by rw [ori_swap12]; linarith
  have hle : t'.pow x ≤ t.pow x := by
    have : ori v u w * (t'.pow x - t.pow x) ≤ 0 := by
      rw [e]
      have := mul_nonneg ox.le k
      linarith
    have := nonpos_of_mul_nonpos_right this o'
    linarith
  have heq : t'.pow x = t1.pow x := le_antisymm (hle.trans hp.le) (hmin t' ht')
  have hx' : (pwT t'.a t'.b t'.c).ev x < 0 := by
    change t'.pow x < 0
    rw [heq]; exact hm
  -- the new triangle `v u w` contains `x`, or `x` is beyond one of its two other edges
  by_cases c1 : ori u w x < 0
  · have c2 := inscribed (x := x) o' v1 v2 v3 hx' c1
    have := hbest (u, w) (memE t' ht' u w ((r'.edges_iff _).mpr (by simp)) heq c1)
    have := cot_lt_left ho c1 c2
    simp only at *
    linarith
  by_cases c2 : ori w v x < 0
  · have c1' : 0 < ori u w x := by
      by_contra hle
      push Not at hle
      have h0 : ori u w x = 0 := le_antisymm hle (not_lt.mp c1)
      -- on the line `u w`, beyond `w`: outside the circle
      have hc := Pw.conv (pwT t'.a t'.b t'.c) v u w x
      change _ * t'.pow x = ori v u w * (_ * t'.pow v + _ * t'.pow u + _ * t'.pow w) - _ at hc
      have v1' : t'.pow v = 0 := v1
      have v2' : t'.pow u = 0 := v2
      rw [v1', v2', v3, h0] at hc
      have d : 0 ≤ (u.x - w.x) ^ 2 + (u.y - w.y) ^ 2 := by positivity
      have n1 : ori w v x * ori v u x * ((u.x - w.x) ^ 2 + (u.y - w.y) ^ 2) ≤ 0 :=
        mul_nonpos_of_nonpos_of_nonneg (mul_nonpos_of_nonpos_of_nonneg c2.le ox.le) d
      have n2 : ori v u w * ori v u w * t'.pow x < 0 := mul_neg_of_pos_of_neg (mul_pos o' o') hx'
      linarith
    have := hbest (w, v) (memE t' ht' w v ((r'.edges_iff _).mpr (by simp)) heq c2)
    have := cot_lt_right ho c2 c1'
    simp only at *
    linarith
  push Not at c1 c2
  have has : t'.Has x := by
    apply vtx t' ht'
    all_goals
      rcases r' with r' | r' | r' <;> rw [r'] <;> first | exact c1 | exact c2 | exact ox.le
  rw [t'.pow_vertex ot'.ne' has] at heq
  linarith

end Verif.Tri

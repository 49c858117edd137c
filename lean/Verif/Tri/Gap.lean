import Verif.Tri.Near

/-!
# Filling the hole with ears of nearly least score
-/

namespace Verif.Tri

/-- Rounded scores are in the order of the scores, and can only be equal up to the relative error `ε`. -/
structure Keys (ε : ℚ) (fl : ℚ → ℚ) : Prop where
  mono : ∀ x y, x ≤ y → fl x ≤ fl y
  near : ∀ x y, 0 ≤ x → 0 ≤ y → fl x ≤ fl y → (1 - ε) * x ≤ y

/-- The ear `a b c` is a convex ear of least rounded score. -/
def NBest (fl : ℚ → ℚ) (p : P2) (h : List P2) (a b c : P2) : Prop :=
  0 < ori a b c ∧ ∀ u v w, (u, v) ∈ cyc h → (v, w) ∈ cyc h → 0 < ori u v w →
    0 ≤ score p a b c → 0 ≤ score p u v w → fl (score p a b c) ≤ fl (score p u v w)

/-- The hull after an ear containing `p` was cut: `p` sees all edges except the closing edge
`a c`, behind which lies the triangle `a q c`. -/
structure Open (G : P2 → Prop) (fl : ℚ → ℚ) (p : P2) (σ τ : ℚ) (h : List P2) (a c q : P2) : Prop where
  edge : (a, c) ∈ cyc h
  y : 0 ≤ ori p c a
  wedge : ∀ u ∈ h, u = a ∨ u = c ∨ (0 < ori p c u ∧ 0 < ori p u a)
  pos : ∀ u v, (u, v) ∈ cyc h → (u, v) ≠ (a, c) → 0 < ori p u v
  only : ∀ u v, (u, v) ∈ cyc h → (u, v) ≠ (a, c) → ∀ x ∈ h, 0 ≤ ori p u x → 0 ≤ ori p x v → x = u ∨ x = v
  supp : ∀ u v, (u, v) ∈ cyc h → (u, v) ≠ (a, c) → ∀ x ∈ h, 0 ≤ (cq p σ u v).ev x
  gq : G q
  hq : 0 < ori a q c
  dq : ∀ x ∈ h, 0 ≤ (pwT a q c).ev x
  lo : σ ≤ score p a q c
  hi : score p a q c ≤ τ
  spos : 0 < σ
  lev : fl τ ≤ fl σ

theorem Open.perm {G fl p σ τ h h' a c q} (O : Open G fl p σ τ h a c q) (hr : h ~r h') : Open G fl p σ τ h' a c q := by
  have hp := cyc_isRotated hr
  have hm := hr.perm
  exact ⟨hp.mem_iff.mp O.edge, O.y, fun u hu => O.wedge u (hm.mem_iff.mpr hu),
    fun u v huv => O.pos u v (hp.mem_iff.mpr huv),
    fun u v huv hne x hx => O.only u v (hp.mem_iff.mpr huv) hne x (hm.mem_iff.mpr hx),
    fun u v huv hne x hx => O.supp u v (hp.mem_iff.mpr huv) hne x (hm.mem_iff.mpr hx),
    O.gq, O.hq, fun x hx => O.dq x (hm.mem_iff.mpr hx), O.lo, O.hi, O.spos, O.lev⟩

/-- Support by the edge that replaces two edges. -/
theorem cut_supp {p a b c x : P2} {σ : ℚ} (hab : 0 < ori p a b) (hbc : 0 < ori p b c) (hac : 0 < ori p a c)
    (h1 : 0 ≤ (cq p σ a b).ev c) (h2 : 0 ≤ (cq p σ b c).ev a) (x1 : 0 ≤ (cq p σ a b).ev x)
    (x2 : 0 ≤ (cq p σ b c).ev x) (hx : 0 < ori p a x → 0 < ori p x c → x = a ∨ x = c) : 0 ≤ (cq p σ a c).ev x := by
  rcases le_or_gt (ori p a x) 0 with k | k
  · have e := Pw.bary (cq p σ a c) (cq p σ a b) p a c x
    rw [cq_p σ hac.ne', cq_p σ hab.ne', cq_u σ hac.ne', cq_u σ hab.ne', cq_v σ hac.ne'] at e
    have t := mul_nonneg (neg_nonneg.mpr k) h1
    have : 0 ≤ ori p a c * ((cq p σ a c).ev x - (cq p σ a b).ev x) := by linarith
    have := nonneg_of_mul_nonneg_right this hac
    linarith
  · rcases le_or_gt (ori p x c) 0 with l | l
    · have b' := Pw.bary (cq p σ a c) (cq p σ b c) p a c x
      rw [cq_p σ hac.ne', cq_p σ hbc.ne', cq_u σ hac.ne', cq_v σ hbc.ne', cq_v σ hac.ne'] at b'
      have e : ori c p x = ori p x c := by unfold ori; ring
      rw [e] at b'
      have t := mul_nonneg (neg_nonneg.mpr l) h2
      have : 0 ≤ ori p a c * ((cq p σ a c).ev x - (cq p σ b c).ev x) := by linarith
      have := nonneg_of_mul_nonneg_right this hac
      linarith
    · rcases hx k l with rfl | rfl
      · rw [cq_u σ hac.ne']
      · rw [cq_v σ hac.ne']

/-- No two corners are each other's successor. -/
theorem no_two_cycle {e1 e2 e3 : P2} {r : List P2} (hn : (e1 :: e2 :: e3 :: r).Nodup) {a c : P2}
    (h1 : (a, c) ∈ cyc (e1 :: e2 :: e3 :: r)) (h2 : (c, a) ∈ cyc (e1 :: e2 :: e3 :: r)) : False := by
  have all := cyc_propagate (P := fun u => u = a ∨ u = c) (l := e1 :: e2 :: e3 :: r) (by
    rintro u v huv (rfl | rfl)
    · exact Or.inr (cyc_succ_unique hn huv h1)
    · exact Or.inl (cyc_succ_unique hn huv h2)) (cyc_mem h1).1 (Or.inl rfl)
  have k1 := all e1 (by simp)
  have k2 := all e2 (by simp)
  have k3 := all e3 (by simp)
  simp only [List.nodup_cons, List.mem_cons, not_or] at hn
  rcases k1 with k1 | k1 <;> rcases k2 with k2 | k2 <;> rcases k3 with k3 | k3
  · exact hn.1.1 (k1.trans k2.symm)
  · exact hn.1.1 (k1.trans k2.symm)
  · exact hn.1.2.1 (k1.trans k3.symm)
  · exact hn.2.1.1 (k2.trans k3.symm)
  · exact hn.2.1.1 (k2.trans k3.symm)
  · exact hn.1.2.1 (k1.trans k3.symm)
  · exact hn.1.1 (k1.trans k2.symm)
  · exact hn.1.1 (k1.trans k2.symm)

/-- A hull with a convex ear has a convex ear of least score. -/
theorem least_ear (p : P2) {h : List P2} (hex : ∃ u v w, (u, v) ∈ cyc h ∧ (v, w) ∈ cyc h ∧ 0 < ori u v w) :
    ∃ a b c, (a, b) ∈ cyc h ∧ (b, c) ∈ cyc h ∧ 0 < ori a b c ∧
      ∀ u v w, (u, v) ∈ cyc h → (v, w) ∈ cyc h → 0 < ori u v w → score p a b c ≤ score p u v w := by
  classical
  let L := ((cyc h).toFinset ×ˢ (cyc h).toFinset).filter (fun e => e.1.2 = e.2.1 ∧ 0 < ori e.1.1 e.1.2 e.2.2)
  have hL : ∀ a b c, ((a, b), (b, c)) ∈ L ↔ (a, b) ∈ cyc h ∧ (b, c) ∈ cyc h ∧ 0 < ori a b c := by
    intro a b c
    simp [L, and_assoc]
  obtain ⟨u, v, w, h1, h2, h3⟩ := hex
  obtain ⟨⟨⟨a, b⟩, b', c⟩, hm, hmin⟩ := L.exists_min_image (fun e => score p e.1.1 e.1.2 e.2.2)
    ⟨((u, v), (v, w)), (hL u v w).mpr ⟨h1, h2, h3⟩⟩
  obtain rfl : b = b' := (Finset.mem_filter.mp hm).2.1
  obtain ⟨k1, k2, k3⟩ := (hL a b c).mp hm
  exact ⟨a, b, c, k1, k2, k3, fun u v w g1 g2 g3 => hmin ((u, v), (v, w)) ((hL u v w).mpr ⟨g1, g2, g3⟩)⟩

section
variable {G : P2 → Prop} {fl p σ τ} {e1 e2 e3 a c q : P2} {r : List P2}

/-- The corner after the closing edge. -/
theorem Open.next (O : Open G fl p σ τ (e1 :: e2 :: e3 :: r) a c q) (hn : (e1 :: e2 :: e3 :: r).Nodup) :
    ∃ d, (c, d) ∈ cyc (e1 :: e2 :: e3 :: r) ∧ d ≠ a ∧ d ≠ c ∧ 0 < ori p c d ∧ 0 < ori p d a ∧ 0 < ori a c d ∧
      σ ≤ score p a c d ∧ score p a c d ≤ τ := by
  have hac := (ne_of_ori_pos O.hq).2.2
  obtain ⟨d, hd⟩ := cyc_succ (cyc_mem O.edge).2
  have hda : d ≠ a := by rintro rfl; exact no_two_cycle hn O.edge hd
  have hcd := O.pos c d hd (by simp [hac])
  have hdc : d ≠ c := by rintro rfl; simp at hcd
  obtain ⟨w1, w2⟩ := ((O.wedge d (cyc_mem hd).2).resolve_left hda).resolve_left hdc
  have ce := closing_ear O.hq (O.spos.trans_le O.lo) O.y w1 w2 (O.dq d (cyc_mem hd).2)
  refine ⟨d, hd, hda, hdc, w1, w2, ce.1, ?_, ce.2.trans O.hi⟩
  have ho : 0 < ori c d a := by rw [ori_rot]; exact ce.1
  have := (cq_next_nonneg w1 ho).mp (O.supp c d hd (by simp [hac]) a (cyc_mem O.edge).1)
  rwa [score_rot ce.1] at this

theorem Open.exists_ear (O : Open G fl p σ τ (e1 :: e2 :: e3 :: r) a c q) (hn : (e1 :: e2 :: e3 :: r).Nodup) :
    ∃ u v w, (u, v) ∈ cyc (e1 :: e2 :: e3 :: r) ∧ (v, w) ∈ cyc (e1 :: e2 :: e3 :: r) ∧ 0 < ori u v w := by
  obtain ⟨d, hd, _, _, _, _, ho, _⟩ := O.next hn
  exact ⟨a, c, d, O.edge, hd, ho⟩

/-- The last triangle. -/
theorem Open.last (O : Open G fl p σ τ [e1, e2, e3] a c q) (hn : [e1, e2, e3].Nodup) : 0 < ori e1 e2 e3 := by
  obtain ⟨d, hd, _, _, _, _, ho, _⟩ := O.next hn
  have h1 := O.edge
  simp only [cyc, path, List.cons_append, List.nil_append, List.mem_cons, Prod.mk.injEq, List.not_mem_nil,
    or_false] at h1 hd
  simp only [List.nodup_cons, List.mem_cons, List.not_mem_nil, or_false, not_or] at hn
  rcases h1 with ⟨rfl, rfl⟩ | ⟨rfl, rfl⟩ | ⟨rfl, rfl⟩ <;> rcases hd with ⟨k1, k2⟩ | ⟨k1, k2⟩ | ⟨k1, k2⟩
  all_goals first
    | (exfalso; subst k1; tauto)
    | (exfalso; tauto)
    | skip
  · subst k2; exact ho
  · subst k2; rw [← ori_rot]; exact ho
  · subst k2; rw [← ori_rot']; exact ho

/-- **Cutting a nearly least ear of an open hull.** -/
theorem Open.clip {B ε : ℚ} (L : Lat G p B) (K : Keys ε fl) (he : 0 ≤ ε) (hB : ε * (B + 1) < 1)
    (O : Open G fl p σ τ (e1 :: e2 :: e3 :: r) a c q) (hn : (e1 :: e2 :: e3 :: r).Nodup)
    (hG : ∀ x ∈ e1 :: e2 :: e3 :: r, G x) (hb : NBest fl p (e1 :: e2 :: e3 :: r) e1 e2 e3) (hr : r ≠ []) :
    (∀ x ∈ e1 :: e2 :: e3 :: r, 0 ≤ (pwT e1 e2 e3).ev x) ∧
      ∃ a' c' q', Open G fl p σ τ (e1 :: e3 :: r) a' c' q' := by
  set h := e1 :: e2 :: e3 :: r with hh
  have e12 : (e1, e2) ∈ cyc h := by simp [hh, cyc, path]
  have e23 : (e2, e3) ∈ cyc h := by simp [hh, cyc, path]
  have new : (e1, e3) ∈ cyc (e1 :: e3 :: r) := by simp [cyc, path]
  have m1 : e1 ∈ h := by simp [hh]
  have m2 : e2 ∈ h := by simp [hh]
  have m3 : e3 ∈ h := by simp [hh]
  have old : ∀ u v, (u, v) ∈ cyc (e1 :: e3 :: r) → (u, v) = (e1, e3) ∨ (u, v) ∈ cyc h := by
    intro u v huv
    simp only [hh, cyc, path, List.cons_append, List.mem_cons] at huv ⊢
    tauto
  have sub : ∀ x ∈ e1 :: e3 :: r, x ∈ h := by
    exact fun x hx => ((List.sublist_cons_self e2 _).cons_cons e1).subset hx
  have nb : e2 ∉ e1 :: e3 :: r := by
    have hn' := hn
    simp only [hh, List.nodup_cons, List.mem_cons, not_or] at hn' ⊢
    exact ⟨fun h => hn'.1.1 h.symm, hn'.2.1.1, hn'.2.1.2⟩
  have n12 : e1 ≠ e2 := by
    have hn' := hn
    simp only [hh, List.nodup_cons, List.mem_cons, not_or] at hn'
    exact hn'.1.1
  have n13 : e1 ≠ e3 := by
    have hn' := hn
    simp only [hh, List.nodup_cons, List.mem_cons, not_or] at hn'
    exact hn'.1.2.1
  have n23 : e2 ≠ e3 := by
    have hn' := hn
    simp only [hh, List.nodup_cons, List.mem_cons, not_or] at hn'
    exact hn'.2.1.1
  have hac := (ne_of_ori_pos O.hq).2.2
  obtain ⟨d, hd, hda, hdc, w1, w2, od, slo, shi⟩ := O.next hn
  -- the level of the chosen ear
  have level : ∀ s, σ ≤ s → fl s ≤ fl τ → s - σ ≤ ε * s := by
    intro s h1 h2
    have := K.near s σ (O.spos.le.trans h1) O.spos.le (h2.trans O.lev)
    linarith
  have chosen : σ ≤ score p e1 e2 e3 → score p e1 e2 e3 - σ ≤ ε * score p e1 e2 e3 := fun k =>
    level _ k ((hb.2 a c d O.edge hd od (O.spos.le.trans k) (O.spos.le.trans slo)).trans (K.mono _ _ shi))
  by_cases c1 : (a, c) = (e1, e2)
  · -- the tip is the first corner after the closing edge
    simp only [Prod.mk.injEq] at c1
    obtain ⟨rfl, rfl⟩ := c1
    have hde : d = e3 := cyc_succ_unique hn hd e23
    subst hde
    have D : ∀ x ∈ h, 0 ≤ (pwT a c d).ev x := fun x hx =>
      near_left L (hG a m1) (hG c m2) (hG d m3) (hG x hx) he hB od O.hq slo (chosen slo) O.y w1
        (O.dq d m3) (O.dq x hx) (O.supp c d e23 (by simp [hac]) x hx)
    have keep : ∀ u v, (u, v) ∈ cyc (a :: d :: r) → (u, v) ≠ (a, d) → (u, v) ∈ cyc h ∧ (u, v) ≠ (a, c) := by
      intro u v huv hne
      refine ⟨(old u v huv).resolve_left hne, ?_⟩
      simp only [ne_eq, Prod.mk.injEq, not_and]
      rintro _ rfl
      exact nb (cyc_mem huv).2
    refine ⟨D, a, d, c, new, w2.le, ?_, ?_, ?_, ?_, hG c m2, od, fun x hx => D x (sub x hx), slo, shi, O.spos, O.lev⟩
    · intro u hu
      by_cases k1 : u = a
      · exact Or.inl k1
      by_cases k2 : u = d
      · exact Or.inr (Or.inl k2)
      have k3 : u ≠ c := by rintro rfl; exact nb hu
      obtain ⟨v1, v2⟩ := ((O.wedge u (sub u hu)).resolve_left k1).resolve_left k3
      refine Or.inr (Or.inr ⟨?_, v2⟩)
      by_contra hle
      push Not at hle
      rcases O.only c d e23 (by simp [hac]) u (sub u hu) v1.le (by rw [ori_swap23]; linarith) with k | k
      · exact k3 k
      · exact k2 k
    · intro u v huv hne
      exact O.pos u v (keep u v huv hne).1 (keep u v huv hne).2
    · intro u v huv hne x hx
      exact O.only u v (keep u v huv hne).1 (keep u v huv hne).2 x (sub x hx)
    · intro u v huv hne x hx
      exact O.supp u v (keep u v huv hne).1 (keep u v huv hne).2 x (sub x hx)
  by_cases c2 : (a, c) = (e2, e3)
  · -- the tip is the last corner before the closing edge
    simp only [Prod.mk.injEq] at c2
    obtain ⟨rfl, rfl⟩ := c2
    obtain ⟨v1, v2⟩ := ((O.wedge e1 m1).resolve_left n12).resolve_left n13
    have ce := closing_ear O.hq (O.spos.trans_le O.lo) O.y v1 v2 (O.dq e1 m1)
    have oe : 0 < ori e1 a c := by rw [← ori_rot]; exact ce.1
    have se : score p e1 a c = score p a c e1 := (score_rot oe).symm
    have ne : (e1, a) ≠ (a, c) := by simp [n12]
    have slo' : σ ≤ score p e1 a c := (cq_next_nonneg v2 oe).mp (O.supp e1 a e12 ne c m3)
    have shi' : score p e1 a c ≤ τ := by rw [se]; exact ce.2.trans O.hi
    have D : ∀ x ∈ h, 0 ≤ (pwT e1 a c).ev x := fun x hx =>
      near_right L (hG a m2) (hG c m3) (hG e1 m1) (hG x hx) he hB oe O.hq slo' (chosen slo') O.y v2
        (O.dq e1 m1) (O.dq x hx) (O.supp e1 a e12 ne x hx)
    have keep : ∀ u v, (u, v) ∈ cyc (e1 :: c :: r) → (u, v) ≠ (e1, c) → (u, v) ∈ cyc h ∧ (u, v) ≠ (a, c) := by
      intro u v huv hne
      refine ⟨(old u v huv).resolve_left hne, ?_⟩
      simp only [ne_eq, Prod.mk.injEq, not_and]
      rintro rfl
      exact (nb (cyc_mem huv).1).elim
    refine ⟨D, e1, c, a, new, v1.le, ?_, ?_, ?_, ?_, hG a m2, oe, fun x hx => D x (sub x hx), slo', shi', O.spos, O.lev⟩
    · intro u hu
      by_cases k1 : u = e1
      · exact Or.inl k1
      by_cases k2 : u = c
      · exact Or.inr (Or.inl k2)
      have k3 : u ≠ a := by rintro rfl; exact nb hu
      obtain ⟨u1, u2⟩ := ((O.wedge u (sub u hu)).resolve_left k3).resolve_left k2
      refine Or.inr (Or.inr ⟨u1, ?_⟩)
      by_contra hle
      push Not at hle
      rcases O.only e1 a e12 ne u (sub u hu) (by rw [ori_swap23]; linarith) u2.le with k | k
      · exact k1 k
      · exact k3 k
    · intro u v huv hne
      exact O.pos u v (keep u v huv hne).1 (keep u v huv hne).2
    · intro u v huv hne x hx
      exact O.only u v (keep u v huv hne).1 (keep u v huv hne).2 x (sub x hx)
    · intro u v huv hne x hx
      exact O.supp u v (keep u v huv hne).1 (keep u v huv hne).2 x (sub x hx)
  · -- the tip is not on the closing edge
    have x12 : (e1, e2) ≠ (a, c) := fun k => c1 k.symm
    have x23 : (e2, e3) ≠ (a, c) := fun k => c2 k.symm
    have p12 := O.pos e1 e2 e12 x12
    have p23 := O.pos e2 e3 e23 x23
    have slo' : σ ≤ score p e1 e2 e3 := (cq_next_nonneg p12 hb.1).mp (O.supp e1 e2 e12 x12 e3 m3)
    have D : ∀ x ∈ h, 0 ≤ (pwT e1 e2 e3).ev x := fun x hx =>
      near_two L (hG e1 m1) (hG e2 m2) (hG e3 m3) (hG x hx) he hB hb.1 p12 p23 slo' (chosen slo')
        (O.supp e1 e2 e12 x12 x hx) (O.supp e2 e3 e23 x23 x hx)
    have e2a : e2 ≠ a := by
      rintro rfl
      exact c2 (by rw [cyc_succ_unique hn O.edge e23])
    have e2c : e2 ≠ c := by
      rintro rfl
      exact c1 (by rw [cyc_pred_unique hn O.edge e12])
    have e1a : e1 ≠ a := by
      rintro rfl
      exact c1 (by rw [cyc_succ_unique hn O.edge e12])
    have e3c : e3 ≠ c := by
      rintro rfl
      exact c2 (by rw [cyc_pred_unique hn O.edge e23])
    obtain ⟨v1, v2⟩ := ((O.wedge e2 m2).resolve_left e2a).resolve_left e2c
    have hne13 : ¬ (e1 = c ∧ e3 = a) := by
      rintro ⟨rfl, rfl⟩
      obtain ⟨r0, r', rfl⟩ := List.exists_cons_of_ne_nil hr
      have k : (e3, r0) ∈ cyc h := by simp [hh, cyc, path]
      have := cyc_succ_unique hn k O.edge
      subst this
      rw [hh] at hn
      simp at hn
    have p13 : 0 < ori p e1 e3 := by
      have pl := plucker p e1 e2 e3 a
      have t : 0 < ori p e1 e3 * ori p e2 a := by
        by_cases k : e1 = c
        · have k3 : e3 ≠ a := fun k3 => hne13 ⟨k, k3⟩
          have w := ((O.wedge e3 m3).resolve_left k3).resolve_left e3c
          have s1 := mul_pos p12 w.2
          have s2 : 0 ≤ ori p e1 a * ori p e2 e3 := by rw [k]; exact mul_nonneg O.y p23.le
          linarith
        · have w := ((O.wedge e1 m1).resolve_left e1a).resolve_left k
          have s1 := mul_pos w.2 p23
          have s2 : 0 ≤ ori p e1 e2 * ori p e3 a := by
            refine mul_nonneg p12.le ?_
            rcases O.wedge e3 m3 with k | k | k
            · rw [k]; simp
            · exact (e3c k).elim
            · exact k.2.le
          linarith
      exact pos_of_mul_pos_left t v2.le
    have only13 : ∀ x ∈ e1 :: e3 :: r, 0 ≤ ori p e1 x → 0 ≤ ori p x e3 → x = e1 ∨ x = e3 := by
      intro x hx h1 h2
      have hxb : x ≠ e2 := fun h => nb (h ▸ hx)
      rcases cone_split e2 h1 h2 with ⟨k1, k2⟩ | ⟨k1, k2⟩
      · exact Or.inl ((O.only e1 e2 e12 x12 x (sub x hx) k1 k2).resolve_right hxb)
      · exact Or.inr ((O.only e2 e3 e23 x23 x (sub x hx) k1 k2).resolve_left hxb)
    refine ⟨D, a, c, q, ?_, O.y, fun u hu => O.wedge u (sub u hu), ?_, ?_, ?_, O.gq, O.hq,
      fun x hx => O.dq x (sub x hx), O.lo, O.hi, O.spos, O.lev⟩
    · have := O.edge
      simp only [hh, cyc, path, List.cons_append, List.mem_cons] at this ⊢
      tauto
    · intro u v huv hne
      rcases old u v huv with k | k
      · simp only [Prod.mk.injEq] at k; obtain ⟨rfl, rfl⟩ := k; exact p13
      · exact O.pos u v k hne
    · intro u v huv hne x hx
      rcases old u v huv with k | k
      · simp only [Prod.mk.injEq] at k; obtain ⟨rfl, rfl⟩ := k; exact only13 x hx
      · exact O.only u v k hne x (sub x hx)
    · intro u v huv hne x hx
      rcases old u v huv with k | k
      · simp only [Prod.mk.injEq] at k; obtain ⟨rfl, rfl⟩ := k
        exact cut_supp p12 p23 p13 (O.supp _ _ e12 x12 _ m3) (O.supp _ _ e23 x23 _ m1) (O.supp _ _ e12 x12 x (sub x hx))
          (O.supp _ _ e23 x23 x (sub x hx)) (fun k1 k2 => only13 x hx k1.le k2.le)
      · exact O.supp u v k hne x (sub x hx)

/-- **Cutting a nearly least ear of a star-shaped hull.** -/
theorem Star.clip_near {B ε : ℚ} (L : Lat G p B) (K : Keys ε fl) (he : 0 ≤ ε) (he1 : ε < 1)
    (hB : ε * (B + 1) < 1)
    (S : Star (· ∈ e1 :: e2 :: e3 :: r) p σ (e1 :: e2 :: e3 :: r)) (h0 : 0 ≤ σ)
    (hn : (e1 :: e2 :: e3 :: r).Nodup)
    (hG : ∀ x ∈ e1 :: e2 :: e3 :: r, G x) (hb : NBest fl p (e1 :: e2 :: e3 :: r) e1 e2 e3) :
    (∀ x ∈ e1 :: e2 :: e3 :: r, 0 ≤ (pwT e1 e2 e3).ev x) ∧
      ((∃ σ', 0 ≤ σ' ∧ Star (· ∈ e1 :: e3 :: r) p σ' (e1 :: e3 :: r)) ∨
        ∃ σ' τ a c q, Open G fl p σ' τ (e1 :: e3 :: r) a c q) := by
  set h := e1 :: e2 :: e3 :: r with hh
  have e12 : (e1, e2) ∈ cyc h := by simp [hh, cyc, path]
  have e23 : (e2, e3) ∈ cyc h := by simp [hh, cyc, path]
  have m1 : e1 ∈ h := by simp [hh]
  have m2 : e2 ∈ h := by simp [hh]
  have m3 : e3 ∈ h := by simp [hh]
  have p12 := S.pos e1 e2 e12
  have p23 := S.pos e2 e3 e23
  have low : ∀ u v w, (u, v) ∈ cyc h → (v, w) ∈ cyc h → 0 < ori u v w → σ ≤ score p u v w :=
    fun u v w huv hvw ho => (cq_next_nonneg (S.pos u v huv) ho).mp (S.supp u v huv w (cyc_mem hvw).2)
  have hs := low e1 e2 e3 e12 e23 hb.1
  have hs0 := h0.trans hs
  set s := score p e1 e2 e3 with hsdef
  obtain ⟨u0, v0, w0, f1, f2, f3, fmin⟩ := least_ear p ⟨e1, e2, e3, e12, e23, hb.1⟩
  have hσ0 := low u0 v0 w0 f1 f2 f3
  set σ' := score p u0 v0 w0 with hσ'
  have hσs : σ' ≤ s := fmin e1 e2 e3 e12 e23 hb.1
  have S' := S.raise hn (fun x hx => hx) hσ0 fmin
  have lev : fl s ≤ fl σ' := hb.2 u0 v0 w0 f1 f2 f3 hs0 (h0.trans hσ0)
  have lev' : (1 - ε) * s ≤ σ' := K.near s σ' hs0 (h0.trans hσ0) lev
  have hk : s - σ' ≤ ε * s := by linarith
  have D : ∀ x ∈ h, 0 ≤ (pwT e1 e2 e3).ev x := fun x hx =>
    near_two L (hG e1 m1) (hG e2 m2) (hG e3 m3) (hG x hx) he hB hb.1 p12 p23 hσs hk
      (S'.supp e1 e2 e12 x hx) (S'.supp e2 e3 e23 x hx)
  refine ⟨D, ?_⟩
  have old : ∀ u v, (u, v) ∈ cyc (e1 :: e3 :: r) → (u, v) = (e1, e3) ∨ (u, v) ∈ cyc h := by
    intro u v huv
    simp only [hh, cyc, path, List.cons_append, List.mem_cons] at huv ⊢
    tauto
  have sub : ∀ x ∈ e1 :: e3 :: r, x ∈ h := by
    exact fun x hx => ((List.sublist_cons_self e2 _).cons_cons e1).subset hx
  have nb : e2 ∉ e1 :: e3 :: r := by
    have hn' := hn
    simp only [hh, List.nodup_cons, List.mem_cons, not_or] at hn' ⊢
    exact ⟨fun h => hn'.1.1 h.symm, hn'.2.1.1, hn'.2.1.2⟩
  rcases lt_or_ge 0 (ori p e1 e3) with hac | hac
  · left
    have only13 : ∀ x ∈ e1 :: e3 :: r, 0 ≤ ori p e1 x → 0 ≤ ori p x e3 → x = e1 ∨ x = e3 := by
      intro x hx h1 h2
      have hxb : x ≠ e2 := fun h => nb (h ▸ hx)
      rcases cone_split e2 h1 h2 with ⟨k1, k2⟩ | ⟨k1, k2⟩
      · exact Or.inl ((S'.only e1 e2 e12 x (sub x hx) k1 k2).resolve_right hxb)
      · exact Or.inr ((S'.only e2 e3 e23 x (sub x hx) k1 k2).resolve_left hxb)
    have only' : ∀ u v, (u, v) ∈ cyc (e1 :: e3 :: r) → ∀ x ∈ e1 :: e3 :: r, 0 ≤ ori p u x → 0 ≤ ori p x v →
        x = u ∨ x = v := by
      intro u v huv x hx
      rcases old u v huv with k | k
      · simp only [Prod.mk.injEq] at k; obtain ⟨rfl, rfl⟩ := k; exact only13 x hx
      · exact S'.only u v k x (sub x hx)
    refine ⟨σ', h0.trans hσ0, by simp, ?_, only', ?_, ?_⟩
    · intro u v huv
      rcases old u v huv with k | k
      · simp only [Prod.mk.injEq] at k; obtain ⟨rfl, rfl⟩ := k; exact hac
      · exact S'.pos u v k
    · intro u v huv x hx h1 h2
      rcases only' u v huv x hx h1 h2 with rfl | rfl <;> simp
    · intro u v huv x hx
      rcases old u v huv with k | k
      · simp only [Prod.mk.injEq] at k; obtain ⟨rfl, rfl⟩ := k
        exact cut_supp p12 p23 hac (S'.supp _ _ e12 _ m3) (S'.supp _ _ e23 _ m1) (S'.supp _ _ e12 x (sub x hx))
          (S'.supp _ _ e23 x (sub x hx)) (fun k1 k2 => only13 x hx k1.le k2.le)
      · exact S'.supp u v k x (sub x hx)
  · right
    have hca : 0 ≤ ori p e3 e1 := by rw [ori_swap23]; linarith
    have spos : 0 < s := by
      have hcl := T3.pow_closed ⟨e1, e2, e3⟩ hb.1 p (by change 0 ≤ ori e1 e2 p; rw [ori_rot p e1 e2]; exact p12.le)
        (by change 0 ≤ ori e2 e3 p; rw [ori_rot p e2 e3]; exact p23.le)
        (by change 0 ≤ ori e3 e1 p; rw [ori_rot p e3 e1]; exact hca)
      have e : T3.pow ⟨e1, e2, e3⟩ p = -s := by rw [hsdef]; unfold score T3.pow; simp
      rw [e] at hcl
      rcases hs0.eq_or_lt with k | k
      · exfalso
        rcases hcl.2 (by rw [← k]; simp) with k | k | k
        · simp only at k; rw [k] at p12; simp at p12
        · simp only at k; rw [k] at p12; simp at p12
        · simp only at k; rw [k] at p23; simp at p23
      · exact k
    have n13 : e1 ≠ e3 := by
      have hn' := hn
      simp only [hh, List.nodup_cons, List.mem_cons, not_or] at hn'
      exact hn'.1.2.1
    refine ⟨σ', s, e1, e3, e2, by simp [cyc, path], hca, ?_, ?_, ?_, ?_, hG e2 m2, hb.1, fun x hx => D x (sub x hx),
      hσs, le_refl _, (mul_pos (by linarith) spos).trans_le lev', lev⟩
    · intro u hu
      by_cases k1 : u = e1
      · exact Or.inl k1
      by_cases k2 : u = e3
      · exact Or.inr (Or.inl k2)
      have k3 : u ≠ e2 := by rintro rfl; exact nb hu
      have um := sub u hu
      -- `u` is in no cone of the two edges that were cut
      have not1 : ¬ (0 ≤ ori p e1 u ∧ 0 ≤ ori p u e2) := fun ⟨h1, h2⟩ => by
        rcases S'.only e1 e2 e12 u um h1 h2 with k | k
        · exact k1 k
        · exact k3 k
      have not2 : ¬ (0 ≤ ori p e2 u ∧ 0 ≤ ori p u e3) := fun ⟨h1, h2⟩ => by
        rcases S'.only e2 e3 e23 u um h1 h2 with k | k
        · exact k3 k
        · exact k2 k
      refine Or.inr (Or.inr ⟨?_, ?_⟩)
      · by_contra hle
        push Not at hle
        have hue : 0 ≤ ori p u e3 := by rw [ori_swap23]; linarith
        have h2 : ori p e2 u < 0 := by
          by_contra h2; exact not2 ⟨not_lt.mp h2, hue⟩
        have h3 : 0 < ori p u e2 := by rw [ori_swap23]; linarith
        have h4 : ori p e1 u < 0 := by
          by_contra h4; exact not1 ⟨not_lt.mp h4, h3.le⟩
        have pl := plucker p u e1 e2 e3
        have s1 : 0 < ori p u e1 := by rw [ori_swap23]; linarith
        have t1 := mul_pos s1 p23
        have t2 := mul_nonneg h3.le (neg_nonneg.mpr hac)
        have t3 := mul_nonneg hue p12.le
        linarith
      · by_contra hle
        push Not at hle
        have hau : 0 ≤ ori p e1 u := by rw [ori_swap23]; linarith
        have h2 : ori p u e2 < 0 := by
          by_contra h2; exact not1 ⟨hau, not_lt.mp h2⟩
        have h3 : 0 < ori p e2 u := by rw [ori_swap23]; linarith
        have h4 : ori p u e3 < 0 := by
          by_contra h4; exact not2 ⟨h3.le, not_lt.mp h4⟩
        have pl := plucker p e1 e2 u e3
        have t1 := mul_pos p12 (neg_pos.mpr h4)
        have t2 := mul_nonneg hau p23.le
        have t3 := mul_nonneg (neg_nonneg.mpr hac) h3.le
        linarith
    · intro u v huv hne
      exact S'.pos u v ((old u v huv).resolve_left hne)
    · intro u v huv hne x hx
      exact S'.only u v ((old u v huv).resolve_left hne) x (sub x hx)
    · intro u v huv hne x hx
      exact S'.supp u v ((old u v huv).resolve_left hne) x (sub x hx)

end

/-- A tiling with a hole bounded by `h`, during the removal of `p` by nearly least ears. -/
structure Gap (s : T3) (W G : P2 → Prop) (fl : ℚ → ℚ) (p : P2) (A : List T3) (h : List P2) : Prop where
  ccw : Ccw A
  verts : ∀ t ∈ A, ∀ x, t.Has x → W x
  loc : LocDel A
  del : ∀ t ∈ A, ∀ x ∈ h, 0 ≤ t.pow x
  chain : ∀ f, Anti f → tsum f A + csum f h = esum f s
  nodup : h.Nodup
  mem : ∀ x ∈ h, W x
  grid : ∀ x ∈ h, G x
  cover : ∀ x, W x → Inside s x → x ∈ h ∨ ∃ t ∈ A, t.Has x
  shape : (∃ σ, 0 ≤ σ ∧ Star (· ∈ h) p σ h) ∨ (3 ≤ h.length ∧ ∃ σ τ a c q, Open G fl p σ τ h a c q)

namespace Gap

variable {s : T3} {W G : P2 → Prop} {fl : ℚ → ℚ} {p : P2} {A : List T3} {h : List P2}

theorem three (H : Gap s W G fl p A h) : 3 ≤ h.length := by
  rcases H.shape with ⟨σ, _, S⟩ | ⟨hl, _⟩
  · exact S.three
  · exact hl

/-- There is always a convex ear. -/
theorem exists_ear (H : Gap s W G fl p A h) : ∃ u v w, (u, v) ∈ cyc h ∧ (v, w) ∈ cyc h ∧ 0 < ori u v w := by
  have hn := H.nodup
  rcases H.shape with ⟨σ, _, S⟩ | ⟨hl, σ, τ, a, c, q, O⟩
  · exact S.exists_ear
  · rcases h with _ | ⟨e1, _ | ⟨e2, _ | ⟨e3, r⟩⟩⟩
    · simp at hl
    · simp at hl
    · simp at hl
    · exact O.exists_ear hn

theorem rot {h' : List P2} (H : Gap s W G fl p A h) (hr : h ~r h') : Gap s W G fl p A h' := by
  have hm := hr.perm
  refine ⟨H.ccw, H.verts, H.loc, fun t ht x hx => H.del t ht x (hm.mem_iff.mpr hx), fun f hf => ?_,
    hm.nodup_iff.mp H.nodup, fun x hx => H.mem x (hm.mem_iff.mpr hx), fun x hx => H.grid x (hm.mem_iff.mpr hx),
    fun x hx hi => ?_, ?_⟩
  · rw [← csum_rot f hr]; exact H.chain f hf
  · rcases H.cover x hx hi with k | k
    · exact Or.inl (hm.mem_iff.mp k)
    · exact Or.inr k
  · rcases H.shape with ⟨σ, h0, S⟩ | ⟨hl, σ, τ, a, c, q, O⟩
    · have e : (· ∈ h) = (· ∈ h') := by funext x; exact propext hm.mem_iff
      exact Or.inl ⟨σ, h0, e ▸ S.perm hr⟩
    · exact Or.inr ⟨by rw [← hm.length_eq]; exact hl, σ, τ, a, c, q, O.perm hr⟩

theorem perm {A' : List T3} (H : Gap s W G fl p A h) (hp : A.Perm A') : Gap s W G fl p A' h where
  ccw := fun t ht => H.ccw t (hp.mem_iff.mpr ht)
  verts := fun t ht => H.verts t (hp.mem_iff.mpr ht)
  loc := fun t ht t' ht' => H.loc t (hp.mem_iff.mpr ht) t' (hp.mem_iff.mpr ht')
  del := fun t ht => H.del t (hp.mem_iff.mpr ht)
  chain := fun f hf => by
    rw [← H.chain f hf]
    congr 1
    exact tsum_perm f hp.symm
  nodup := H.nodup
  mem := H.mem
  grid := H.grid
  cover := fun x hx hi => by
    rcases H.cover x hx hi with k | ⟨t, ht, k⟩
    · exact Or.inl k
    · exact Or.inr ⟨t, hp.mem_iff.mp ht, k⟩
  shape := H.shape

/-- Adding a triangle with corners on the hull keeps the local condition. -/
theorem loc_add (H : Gap s W G fl p A h) {t : T3} {a b c : P2} (ht : t.Rep a b c) (ho : 0 < ori a b c)
    (ha : a ∈ h) (hb : b ∈ h) (hc : c ∈ h) : LocDel (A ++ [t]) := by
  have hto : 0 < t.or := by rw [ht.or_eq]; exact ho
  have hth : ∀ x, t.Has x → x ∈ h := by
    intro x hx
    rcases (ht.has_iff x).mp hx with rfl | rfl | rfl
    · exact ha
    · exact hb
    · exact hc
  intro t1 h1 t2 h2 u v w w' r1 r2
  rcases List.mem_append.mp h1 with g1 | g1 <;> rcases List.mem_append.mp h2 with g2 | g2
  · exact H.loc t1 g1 t2 g2 u v w w' r1 r2
  · rw [List.mem_singleton] at g2; subst g2
    exact H.del t1 g1 w' (hth w' ((r2.has_iff w').mpr (by simp)))
  · rw [List.mem_singleton] at g1; subst g1
    exact locDel_symm (H.ccw t2 g2) hto r2 r1 (H.del t2 g2 w (hth w ((r1.has_iff w).mpr (by simp))))
  · rw [List.mem_singleton] at g1 g2; subst g1; subst g2
    -- the same triangle cannot have an edge in both directions
    exfalso
    have o1 := hto
    have o2 := hto
    rw [r1.or_eq] at o1
    rw [r2.or_eq] at o2
    have n := ne_of_ori_pos o1
    have e := (r1.edges_iff (v, u)).mp ((r2.edges_iff _).mpr (Or.inl rfl))
    simp only [Prod.mk.injEq] at e
    rcases e with ⟨e, _⟩ | ⟨_, e⟩ | ⟨e, _⟩
    · exact n.1 e.symm
    · exact n.2.2 e.symm
    · exact n.2.1 e

/-- **Ear step** with a nearly least ear. -/
theorem step {B ε : ℚ} (L : Lat G p B) (K : Keys ε fl) (he : 0 ≤ ε) (he1 : ε < 1)
    (hB : ε * (B + 1) < 1)
    {a b c : P2} {r h' : List P2} (H : Gap s W G fl p A h) (hr : h ~r a :: b :: c :: r)
    (hr' : h' ~r a :: c :: r) (hlen : 3 < h.length) (hbest : NBest fl p h a b c) {t : T3}
    (ht : t.Rep a b c) : Gap s W G fl p (A ++ [t]) h' := by
  have H1 := H.rot hr
  have hrne : r ≠ [] := by
    rintro rfl
    have := hr.perm.length_eq
    simp at this; omega
  have hp := cyc_isRotated hr
  have hb' : NBest fl p (a :: b :: c :: r) a b c :=
    ⟨hbest.1, fun u v w huv hvw => hbest.2 u v w (hp.mem_iff.mpr huv) (hp.mem_iff.mpr hvw)⟩
  have hl' : 3 ≤ (a :: c :: r).length := by
    have := List.length_pos_iff.mpr hrne
    simp; omega
  have hmem : ∀ x ∈ a :: c :: r, x ∈ a :: b :: c :: r := by
    intro x hx; simp only [List.mem_cons] at *; tauto
  have hD : (∀ x ∈ a :: b :: c :: r, 0 ≤ (pwT a b c).ev x) ∧
      ((∃ σ, 0 ≤ σ ∧ Star (· ∈ a :: c :: r) p σ (a :: c :: r)) ∨
        (3 ≤ (a :: c :: r).length ∧ ∃ σ τ a' c' q, Open G fl p σ τ (a :: c :: r) a' c' q)) := by
    rcases H1.shape with ⟨σ, h0, S⟩ | ⟨_, σ, τ, a', c', q, O⟩
    · obtain ⟨k1, k2⟩ := S.clip_near L K he he1 hB h0 H1.nodup H1.grid hb'
      exact ⟨k1, k2.imp id (fun k => ⟨hl', k⟩)⟩
    · obtain ⟨k1, k2⟩ := O.clip L K he hB H1.nodup H1.grid hb' hrne
      exact ⟨k1, Or.inr ⟨hl', σ, τ, k2⟩⟩
  have hto : t.or ≠ 0 := by rw [ht.or_eq]; exact hbest.1.ne'
  have main : Gap s W G fl p (A ++ [t]) (a :: c :: r) := by
    refine ⟨?_, ?_, H1.loc_add ht hbest.1 (by simp) (by simp) (by simp), ?_, ?_,
      H1.nodup.sublist ((List.sublist_cons_self b _).cons_cons a), fun x hx => H1.mem x (hmem x hx),
      fun x hx => H1.grid x (hmem x hx), ?_, hD.2⟩
    · intro u hu
      rcases List.mem_append.mp hu with hu | hu
      · exact H1.ccw u hu
      · rw [List.mem_singleton] at hu; subst hu; rw [ht.or_eq]; exact hbest.1
    · intro u hu x hx
      rcases List.mem_append.mp hu with hu | hu
      · exact H1.verts u hu x hx
      · rw [List.mem_singleton] at hu; subst hu
        rcases (ht.has_iff x).mp hx with rfl | rfl | rfl <;> exact H1.mem _ (by simp)
    · intro u hu x hx
      rcases List.mem_append.mp hu with hu | hu
      · exact H1.del u hu x (hmem x hx)
      · rw [List.mem_singleton] at hu; subst hu
        rw [ht.pow_eq hto]; exact hD.1 x (hmem x hx)
    · intro f hf
      have h1 := H1.chain f hf
      have h2 := hf c a
      rw [tsum_append, tsum_cons, tsum_nil, ht.esum_eq]
      unfold csum at h1 ⊢
      simp only [cyc, path, List.cons_append, List.map_cons, List.sum_cons] at h1 ⊢
      linarith
    · intro x hx hi
      rcases H1.cover x hx hi with k | ⟨u, hu, k⟩
      · by_cases e : x = b
        · exact Or.inr ⟨t, by simp, (ht.has_iff x).mpr (Or.inr (Or.inl e))⟩
        · left
          simp only [List.mem_cons] at k ⊢
          tauto
      · exact Or.inr ⟨u, List.mem_append_left _ hu, k⟩
  exact main.rot hr'.symm

theorem last_pos {a b c : P2} (H : Gap s W G fl p A [a, b, c]) : 0 < ori a b c := by
  rcases H.shape with ⟨σ, _, S⟩ | ⟨_, σ, τ, a', c', q, O⟩
  · exact (S.last H.nodup (fun x hx => hx)).1
  · exact O.last H.nodup

/-- **Last triangle**: filling a triangular gap restores the Delaunay invariant. -/
theorem finish {V : P2 → Prop} {a b c : P2} (H : Gap s (fun x => V x ∨ s.Has x) G fl p A [a, b, c])
    (hs : 0 < s.or) (hin : ∀ x, V x → Inside s x) {t : T3} (ht : t.Rep a b c) : Inv s V (A ++ [t]) := by
  have ho := H.last_pos
  have hverts : ∀ u ∈ A ++ [t], ∀ x, u.Has x → V x ∨ s.Has x := by
    intro u hu x hx
    rcases List.mem_append.mp hu with hu | hu
    · exact H.verts u hu x hx
    · rw [List.mem_singleton] at hu; subst hu
      apply H.mem
      rcases (ht.has_iff x).mp hx with rfl | rfl | rfl <;> simp
  have hccw : Ccw (A ++ [t]) := by
    intro u hu
    rcases List.mem_append.mp hu with hu | hu
    · exact H.ccw u hu
    · rw [List.mem_singleton] at hu; subst hu; rw [ht.or_eq]; exact ho
  have hchain : Chain s (A ++ [t]) := by
    intro f hf
    have := H.chain f hf
    rw [tsum_append, tsum_cons, tsum_nil, ht.esum_eq]
    simp only [csum, cyc, path, List.cons_append, List.nil_append, List.map_cons, List.map_nil,
      List.sum_cons, List.sum_nil] at this
    linarith
  refine ⟨hs, hccw, hchain, hverts, hin, ?_⟩
  refine Tiling.delaunay ⟨hs, hccw, hchain⟩ (W := fun x => V x ∨ s.Has x) ?_ hverts ?_
    (H.loc_add ht ho (by simp) (by simp) (by simp))
  · rintro x (k | k)
    · exact Or.inl (hin x k)
    · exact Or.inr k
  · intro x hx hi
    rcases H.cover x hx hi with k | ⟨u, hu, k⟩
    · refine ⟨t, by simp, (ht.has_iff x).mpr ?_⟩
      simpa using k
    · exact ⟨u, List.mem_append_left _ hu, k⟩

end Gap

/-- The start of a removal. -/
theorem Hole.gap {s : T3} {W G : P2 → Prop} {fl : ℚ → ℚ} {p : P2} {A : List T3} {h : List P2} (H : Hole s W p A h)
    (S : Star W p 0 h) (hG : ∀ x ∈ h, G x) (hc : ∀ x, W x → Inside s x → x ∈ h ∨ ∃ t ∈ A, t.Has x) :
    Gap s W G fl p A h where
  ccw := H.ccw
  verts := H.verts
  loc := fun t ht t' ht' u v w w' _ r' => H.del t ht w' (H.verts t' ht' w' ((r'.has_iff w').mpr (by simp)))
  del := fun t ht x hx => H.del t ht x (H.mem x hx)
  chain := H.chain
  nodup := H.nodup
  mem := H.mem
  grid := hG
  cover := hc
  shape := Or.inl ⟨0, le_refl _, S.ne, S.pos, S.only, fun u v huv x hx => S.beyond u v huv x (H.mem x hx),
    fun u v huv x hx => S.supp u v huv x (H.mem x hx)⟩

/-- **Removing a vertex** leaves a gap bounded by the vertices around it. -/
theorem remove_gap {s : T3} {V G : P2 → Prop} {fl : ℚ → ℚ} {p : P2} {T P A : List T3} {h : List P2} (I : Inv s V T) (hp : V p)
    (hT : T.Perm (P ++ A)) (hP : ∀ t ∈ P, t.Has p) (hA : ∀ t ∈ A, ¬ t.Has p) (hn : h.Nodup)
    (hm : ∀ x, x ∈ h ↔ x ≠ p ∧ ∃ t ∈ P, t.Has x) (hs : h.Pairwise (AngLt p)) (hG : ∀ x ∈ h, G x) :
    Gap s (fun x => (V x ∧ x ≠ p) ∨ s.Has x) G fl p A h := by
  obtain ⟨S, H⟩ := remove_hole I hp hT hP hA hn hm hs
  refine H.gap S hG ?_
  rintro x (⟨hx, hne⟩ | hx) hi
  · obtain ⟨t, ht, k⟩ := I.vertex_of_mem hx
    rcases List.mem_append.mp (hT.mem_iff.mp ht) with g | g
    · exact Or.inl ((hm x).mpr ⟨hne, t, g, k⟩)
    · exact Or.inr ⟨t, g, k⟩
  · exact (Inv.not_super_of_inside hi hx).elim

end Verif.Tri

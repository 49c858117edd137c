import Verif.Tri.Inv

/-!
# Bowyer-Watson insertion preserves the Delaunay invariant
-/

namespace Verif.Tri

/-- A sum of an antisymmetric function over a duplicate-free list closed under reversal is 0. -/
theorem sum_swap_closed {f : P2 → P2 → ℤ} (hf : Anti f) {L : List (P2 × P2)} (hn : L.Nodup)
    (hc : ∀ u v, (u, v) ∈ L → (v, u) ∈ L) : (L.map (fun e => f e.1 e.2)).sum = 0 := by
  have hp : (L.map Prod.swap).Perm L := by
    refine (List.perm_ext_iff_of_nodup (hn.map Prod.swap_injective) hn).mpr ?_
    rintro ⟨u, v⟩
    rw [List.mem_map]
    constructor
    · rintro ⟨⟨a, b⟩, h, he⟩
      simp at he
      obtain ⟨rfl, rfl⟩ := he
      exact hc _ _ h
    · intro h
      exact ⟨(v, u), hc _ _ h, rfl⟩
  have h1 := (hp.map (fun e => f e.1 e.2)).sum_eq
  rw [List.map_map] at h1
  have h2 : (L.map ((fun e => f e.1 e.2) ∘ Prod.swap)).sum = - (L.map (fun e => f e.1 e.2)).sum := by
    clear hp h1 hn hc
    induction L with
    | nil => rfl
    | cons e L ih =>
      simp only [List.map_cons, List.sum_cons, ih, Function.comp, Prod.swap]
      have := hf e.2 e.1
      linarith
  linarith

/-- Boundary edges of a cavity `C`. -/
def Boundary (C : List T3) (B : List (P2 × P2)) : Prop :=
  B.Nodup ∧ ∀ u v, (u, v) ∈ B ↔ (u, v) ∈ edgesOf C ∧ (v, u) ∉ edgesOf C

/-- Sum over the cavity equals the sum over its boundary. -/
theorem tsum_boundary {C : List T3} {B : List (P2 × P2)} (hn : (edgesOf C).Nodup)
    (hB : Boundary C B) {f : P2 → P2 → ℤ} (hf : Anti f) :
    tsum f C = (B.map (fun e => f e.1 e.2)).sum := by
  rw [tsum_eq_edges]
  set E := edgesOf C with hE
  have hp : E.Perm (E.filter (fun e => decide ((e.2, e.1) ∈ E)) ++ B) := by
    refine ((List.filter_append_perm (fun e : P2 × P2 => decide ((e.2, e.1) ∈ E)) E).symm).trans ?_
    refine List.Perm.append_left _ ?_
    refine (List.perm_ext_iff_of_nodup (hn.filter _) hB.1).mpr ?_
    rintro ⟨u, v⟩
    rw [hB.2 u v, List.mem_filter]
    simp only [Bool.not_eq_eq_eq_not, Bool.not_true, decide_eq_false_iff_not, hE]
  rw [(hp.map _).sum_eq, List.map_append, List.sum_append, sum_swap_closed hf (hn.filter _), zero_add]
  intro u v h
  rw [List.mem_filter] at h ⊢
  simp only [decide_eq_true_eq] at h ⊢
  exact ⟨h.2, h.1⟩

/-- The new triangles of an insertion, up to rotation. -/
def NewTris (p : P2) (B : List (P2 × P2)) (N : List T3) : Prop :=
  List.Forall₂ (fun (e : P2 × P2) t => t.Rep e.1 e.2 p) B N

theorem NewTris.tsum {p : P2} {B N} (h : NewTris p B N) (f : P2 → P2 → ℤ) :
    tsum f N = (B.map (fun e => f e.1 e.2)).sum + (B.map (fun e => f e.2 p + f p e.1)).sum := by
  induction h with
  | nil => rfl
  | cons h _ ih =>
    rw [tsum_cons, ih, h.esum_eq]
    simp only [List.map_cons, List.sum_cons]
    ring

theorem NewTris.mem {p : P2} {B N} (h : NewTris p B N) {t : T3} (ht : t ∈ N) :
    ∃ u v, (u, v) ∈ B ∧ t.Rep u v p := by
  induction h with
  | nil => simp at ht
  | cons h _ ih =>
    rcases List.mem_cons.mp ht with rfl | ht
    · exact ⟨_, _, List.mem_cons_self, h⟩
    · obtain ⟨u, v, h1, h2⟩ := ih ht
      exact ⟨u, v, List.mem_cons_of_mem _ h1, h2⟩

section

variable {s : T3} {V : P2 → Prop} {T C R : List T3} {p : P2} {B : List (P2 × P2)} {N : List T3}

theorem edgesOf_perm {T U : List T3} (h : T.Perm U) : (edgesOf T).Perm (edgesOf U) :=
  h.flatMap_right _

/-- Data at a boundary edge of the cavity. -/
theorem boundary_edge (I : Inv s V T) (hT : T.Perm (C ++ R)) (hp : Inside s p)
    (hC : ∀ t ∈ C, t.pow p ≤ 0) (hR : ∀ t ∈ R, 0 < t.pow p) (hB : Boundary C B) {u v : P2}
    (he : (u, v) ∈ B) :
    0 < ori u v p ∧
    (∃ t1 ∈ T, ∃ a, t1.Rep u v a ∧ t1.pow p ≤ 0) ∧
    ((u, v) ∈ s.edges ∨ ∃ t2 ∈ T, ∃ b, t2.Rep v u b ∧ 0 < t2.pow p) := by
  obtain ⟨h1, h2⟩ := (hB.2 u v).mp he
  obtain ⟨t1, ht1, e1⟩ := mem_edgesOf.mp h1
  obtain ⟨a, ra⟩ := (t1.mem_edges_iff u v).mp e1
  have mC : ∀ t ∈ C, t ∈ T := fun t h => hT.mem_iff.mpr (List.mem_append_left _ h)
  have mR : ∀ t ∈ R, t ∈ T := fun t h => hT.mem_iff.mpr (List.mem_append_right _ h)
  have ht1T := mC t1 ht1
  have hE : (u, v) ∈ edgesOf T := mem_edgesOf.mpr ⟨t1, ht1T, e1⟩
  rcases I.rev_or_super hE with hr | hs
  · obtain ⟨t2, ht2, e2⟩ := mem_edgesOf.mp hr
    obtain ⟨b, rb⟩ := (t2.mem_edges_iff v u).mp e2
    have ht2R : t2 ∈ R := by
      rcases List.mem_append.mp (hT.mem_iff.mp ht2) with h | h
      · exact (h2 (mem_edgesOf.mpr ⟨t2, h, e2⟩)).elim
      · exact h
    have p2 := hR t2 ht2R
    have p1 := hC t1 ht1
    refine ⟨?_, ⟨t1, ht1T, a, ra, p1⟩, Or.inr ⟨t2, ht2, b, rb, p2⟩⟩
    have o1 := I.ccw t1 ht1T
    have n1 := I.t_ne ht1T
    have n2 := I.t_ne ht2
    have hd := Pw.diff_edge (pwT t1.a t1.b t1.c) (pwT t2.a t2.b t2.c) u v p a
      (t1.pow_vertex n1 ((ra.has_iff u).mpr (Or.inl rfl)))
      (t1.pow_vertex n1 ((ra.has_iff v).mpr (Or.inr (Or.inl rfl))))
      (t2.pow_vertex n2 ((rb.has_iff u).mpr (Or.inr (Or.inl rfl))))
      (t2.pow_vertex n2 ((rb.has_iff v).mpr (Or.inl rfl)))
    change ori u v a * (t1.pow p - t2.pow p) = ori u v p * (t1.pow a - t2.pow a) at hd
    rw [t1.pow_vertex n1 ((ra.has_iff a).mpr (Or.inr (Or.inr rfl)))] at hd
    have ha : 0 ≤ t2.pow a := I.del t2 ht2 a (I.verts t1 ht1T a ((ra.has_iff a).mpr (Or.inr (Or.inr rfl))))
    rw [ra.or_eq] at o1
    have h3 : 0 < ori u v a * (t2.pow p - t1.pow p) := mul_pos o1 (by linarith)
    have h4 : 0 < ori u v p * t2.pow a := by linarith
    exact pos_of_mul_pos_left h4 ha
  · exact ⟨inside_edge hp hs, ⟨t1, ht1T, a, ra, hC t1 ht1⟩, Or.inl hs⟩

/-- **Insertion**: replacing the cavity by the fan of `p` preserves the invariant. -/
theorem insert_inv (I : Inv s V T) (hT : T.Perm (C ++ R)) (hp : Inside s p)
    (hC : ∀ t ∈ C, t.pow p ≤ 0) (hR : ∀ t ∈ R, 0 < t.pow p) (hB : Boundary C B)
    (hN : NewTris p B N) : Inv s (fun x => V x ∨ x = p) (R ++ N) := by
  have mR : ∀ t ∈ R, t ∈ T := fun t h => hT.mem_iff.mpr (List.mem_append_right _ h)
  have hnC : (edgesOf C).Nodup := by
    have h := (edgesOf_perm hT).nodup_iff.mp I.edges_nodup
    rw [edgesOf, List.flatMap_append] at h
    exact (List.nodup_append.mp h).1
  refine ⟨I.sccw, ?_, ?_, ?_, ?_, ?_⟩
  · intro t ht
    rcases List.mem_append.mp ht with ht | ht
    · exact I.ccw t (mR t ht)
    · obtain ⟨u, v, he, hr⟩ := hN.mem ht
      rw [hr.or_eq]
      exact (boundary_edge I hT hp hC hR hB he).1
  · intro f hf
    rw [← I.chain f hf, tsum_perm f hT, tsum_append, tsum_append, hN.tsum, tsum_boundary hnC hB hf]
    -- the spokes cancel
    let g : P2 → P2 → ℤ := fun u v => f v p + f p u
    have hg : Anti g := by
      intro u v
      have h1 := hf u p
      have h2 := hf v p
      change f v p + f p u = -(f u p + f p v)
      linarith
    have h0 : (B.map (fun e => f e.2 p + f p e.1)).sum = 0 := by
      rw [← tsum_boundary hnC hB hg]
      clear hN hB hnC mR hC hR hT
      induction C with
      | nil => rfl
      | cons t C ih =>
        rw [tsum_cons, ih]
        change (f t.b p + f p t.a) + (f t.c p + f p t.b) + (f t.a p + f p t.c) + 0 = 0
        have h1 := hf t.a p
        have h2 := hf t.b p
        have h3 := hf t.c p
        linarith
    rw [h0]; ring
  · intro t ht x hx
    rcases List.mem_append.mp ht with ht | ht
    · rcases I.verts t (mR t ht) x hx with h | h
      · exact Or.inl (Or.inl h)
      · exact Or.inr h
    · obtain ⟨u, v, he, hr⟩ := hN.mem ht
      obtain ⟨-, ⟨t1, ht1, a, ra, -⟩, -⟩ := boundary_edge I hT hp hC hR hB he
      have key : ∀ y, t1.Has y → (V y ∨ y = p) ∨ s.Has y := fun y hy => by
        rcases I.verts t1 ht1 y hy with h | h
        · exact Or.inl (Or.inl h)
        · exact Or.inr h
      rcases (hr.has_iff x).mp hx with rfl | rfl | rfl
      · exact key _ ((ra.has_iff _).mpr (Or.inl rfl))
      · exact key _ ((ra.has_iff _).mpr (Or.inr (Or.inl rfl)))
      · exact Or.inl (Or.inr rfl)
  · rintro x (h | rfl)
    · exact I.inside x h
    · exact hp
  · intro t ht x hx
    have hx' : x = p ∨ (V x ∨ s.Has x) := by tauto
    rcases List.mem_append.mp ht with ht | ht
    · rcases hx' with rfl | h
      · exact (hR t ht).le
      · exact I.del t (mR t ht) x h
    · obtain ⟨u, v, he, hr⟩ := hN.mem ht
      obtain ⟨ho, ⟨t1, ht1, a, ra, p1⟩, h2⟩ := boundary_edge I hT hp hC hR hB he
      have hne : t.or ≠ 0 := by rw [hr.or_eq]; exact ho.ne'
      have vu := t.pow_vertex hne ((hr.has_iff u).mpr (Or.inl rfl))
      have vv := t.pow_vertex hne ((hr.has_iff v).mpr (Or.inr (Or.inl rfl)))
      have vp := t.pow_vertex hne ((hr.has_iff p).mpr (Or.inr (Or.inr rfl)))
      rcases hx' with rfl | hx
      · rw [vp]
      · have n1 := I.t_ne ht1
        rcases le_or_gt 0 (ori u v x) with hl | hl
        · have hd := Pw.diff_edge (pwT t.a t.b t.c) (pwT t1.a t1.b t1.c) u v x p vu vv
            (t1.pow_vertex n1 ((ra.has_iff u).mpr (Or.inl rfl)))
            (t1.pow_vertex n1 ((ra.has_iff v).mpr (Or.inr (Or.inl rfl))))
          change ori u v p * (t.pow x - t1.pow x) = ori u v x * (t.pow p - t1.pow p) at hd
          rw [vp] at hd
          have h3 : 0 ≤ ori u v x * (0 - t1.pow p) := mul_nonneg hl (by linarith)
          rw [← hd] at h3
          have h4 := nonneg_of_mul_nonneg_right h3 ho
          have h5 := I.del t1 ht1 x hx
          linarith
        · rcases h2 with h2 | ⟨t2, ht2, b, rb, p2⟩
          · have := I.super_edge_nonneg h2 hx
            linarith
          · have n2 := I.t_ne ht2
            have hd := Pw.diff_edge (pwT t.a t.b t.c) (pwT t2.a t2.b t2.c) u v x p vu vv
              (t2.pow_vertex n2 ((rb.has_iff u).mpr (Or.inr (Or.inl rfl))))
              (t2.pow_vertex n2 ((rb.has_iff v).mpr (Or.inl rfl)))
            change ori u v p * (t.pow x - t2.pow x) = ori u v x * (t.pow p - t2.pow p) at hd
            rw [vp] at hd
            have h3 : 0 ≤ ori u v x * (0 - t2.pow p) :=
              mul_nonneg_of_nonpos_of_nonpos hl.le (by linarith)
            rw [← hd] at h3
            have h4 := nonneg_of_mul_nonneg_right h3 ho
            have h5 := I.del t2 ht2 x hx
            linarith

end

end Verif.Tri

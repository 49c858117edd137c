import Verif.Tri.Link

/-!
# A Delaunay triangulation of `n` points in the bounding triangle has `2n + 1` triangles
-/

namespace Verif.Tri

section

variable {s : T3} {V : P2 → Prop} {T P A : List T3} {p : P2} {h : List P2}

/-- Different neighbours of an inner vertex are seen in different directions. -/
theorem link_dirs (I : Inv s V T) (hp : V p) {t t' : T3} (ht : t ∈ T) (ht' : t' ∈ T) (h1 : t.Has p)
    (h1' : t'.Has p) {x y : P2} (hx : t.Has x) (hy : t'.Has y) (nx : x ≠ p) (ny : y ≠ p)
    (hd : SameDir p x y) : x = y := by
  obtain ⟨t1, ht1, v, hr⟩ := link_succ I hp ht h1 hx nx
  obtain ⟨t2, ht2, w, hr'⟩ := link_succ I hp ht' h1' hy ny
  obtain ⟨h0, hpos⟩ := hd
  have o := I.ccw t1 ht1
  rw [hr.or_eq] at o
  have key : ori p y v * ((x.x - p.x) ^ 2 + (x.y - p.y) ^ 2) =
      ori p x v * ((x.x - p.x) * (y.x - p.x) + (x.y - p.y) * (y.y - p.y))
      + ori p x y * ((x.x - p.x) * (v.x - p.x) + (x.y - p.y) * (v.y - p.y)) * (-1) := by
    unfold ori; ring
  rw [h0] at key
  have k2 : 0 < ori p y v := by
    have h2 : 0 < ori p y v * ((x.x - p.x) ^ 2 + (x.y - p.y) ^ 2) := by
      rw [key]
      have := mul_pos o hpos
      linarith
    exact pos_of_mul_pos_left h2 (by positivity)
  exact (link_only I ht1 ht2 hr hr' h0.ge k2).1.symm

/-- Sorting by direction. -/
theorem exists_sorted {α} (R : α → α → Prop) (L : List α)
    (tot : ∀ x ∈ L, ∀ y ∈ L, x ≠ y → R x y ∨ R y x)
    (tr : ∀ x ∈ L, ∀ y ∈ L, ∀ z ∈ L, R x y → R y z → R x z) (hn : L.Nodup) :
    ∃ M : List α, M.Perm L ∧ M.Pairwise R := by
  induction L with
  | nil => exact ⟨[], List.Perm.refl _, List.Pairwise.nil⟩
  | cons a L ih =>
    obtain ⟨M, hM, hs⟩ := ih (fun x hx y hy => tot x (by simp [hx]) y (by simp [hy]))
      (fun x hx y hy z hz => tr x (by simp [hx]) y (by simp [hy]) z (by simp [hz]))
      (List.nodup_cons.mp hn).2
    have ha := (List.nodup_cons.mp hn).1
    have hmem : ∀ x ∈ M, x ∈ L := fun x hx => hM.mem_iff.mp hx
    suffices hins : ∀ M : List α, (∀ x ∈ M, x ∈ L) → M.Pairwise R →
        ∃ M' : List α, M'.Perm (a :: M) ∧ M'.Pairwise R by
      obtain ⟨M', h1, h2⟩ := hins M hmem hs
      exact ⟨M', h1.trans (hM.cons a), h2⟩
    intro M
    induction M with
    | nil => intro _ _; exact ⟨[a], List.Perm.refl _, by simp⟩
    | cons b M ihM =>
      intro hm hp
      have hbL := hm b (by simp)
      have hne : a ≠ b := by rintro rfl; exact ha hbL
      rcases tot a (by simp) b (by simp [hbL]) hne with h1 | h1
      · refine ⟨a :: b :: M, List.Perm.refl _, List.Pairwise.cons ?_ hp⟩
        intro y hy
        rcases List.mem_cons.mp hy with rfl | hy
        · exact h1
        · exact tr a (by simp) b (by simp [hbL]) y (by simp [hm y (by simp [hy])]) h1
            ((List.pairwise_cons.mp hp).1 y hy)
      · obtain ⟨M', h2, h3⟩ := ihM (fun x hx => hm x (by simp [hx])) (List.pairwise_cons.mp hp).2
        refine ⟨b :: M', (h2.cons b).trans (List.Perm.swap a b M), List.Pairwise.cons ?_ h3⟩
        intro y hy
        rcases List.mem_cons.mp (h2.mem_iff.mp hy) with rfl | hy
        · exact h1
        · exact (List.pairwise_cons.mp hp).1 y hy

/-- The star of an inner vertex has as many triangles as neighbours. -/
theorem star_length (I : Inv s V T) (hp : V p) (hT : T.Perm (P ++ A)) (hP : ∀ t ∈ P, t.Has p)
    (hA : ∀ t ∈ A, ¬ t.Has p) (hn : h.Nodup) (hm : ∀ x, x ∈ h ↔ x ≠ p ∧ ∃ t ∈ P, t.Has x) :
    P.length = h.length := by
  have mP : ∀ t ∈ P, t ∈ T := fun t k => hT.mem_iff.mpr (List.mem_append_left _ k)
  have hTn : T.Nodup := by
    have hd := I.disjoint
    refine hd.imp_of_mem ?_
    intro t u ht hu hd he
    subst he
    have hmid : HalfOpen t ⟨(t.a.x + t.b.x + t.c.x) / 3, (t.a.y + t.b.y + t.c.y) / 3⟩ := by
      have ho := I.ccw t ht
      unfold T3.or at ho
      apply HalfOpen.of_interior
      · have : ori t.a t.b ⟨(t.a.x + t.b.x + t.c.x) / 3, (t.a.y + t.b.y + t.c.y) / 3⟩ = ori t.a t.b t.c / 3 := by
          unfold ori; ring
        rw [this]; linarith
      · have : ori t.b t.c ⟨(t.a.x + t.b.x + t.c.x) / 3, (t.a.y + t.b.y + t.c.y) / 3⟩ = ori t.a t.b t.c / 3 := by
          unfold ori; ring
        rw [this]; linarith
      · have : ori t.c t.a ⟨(t.a.x + t.b.x + t.c.x) / 3, (t.a.y + t.b.y + t.c.y) / 3⟩ = ori t.a t.b t.c / 3 := by
          unfold ori; ring
        rw [this]; linarith
    exact hd _ ⟨hmid, hmid⟩
  have hPn : P.Nodup := (List.nodup_append.mp (hT.nodup_iff.mp hTn)).1
  have hperm : (P.map (fun t => (linkE p t).1)).Perm h := by
    refine (List.perm_ext_iff_of_nodup ?_ hn).mpr ?_
    · refine (List.nodup_map_iff_inj_on hPn).mpr ?_
      intro t ht u hu he
      have r1 := linkE_rep (hP t ht)
      have r2 := linkE_rep (hP u hu)
      rw [← he] at r2
      exact I.edge_unique (mP t ht) (mP u hu) ((t.mem_edges_iff _ _).mpr ⟨_, r1⟩)
        ((u.mem_edges_iff _ _).mpr ⟨_, r2⟩)
    · intro x
      rw [List.mem_map, hm]
      constructor
      · rintro ⟨t, ht, rfl⟩
        have r1 := linkE_rep (hP t ht)
        have o := I.ccw t (mP t ht)
        rw [r1.or_eq] at o
        exact ⟨(ne_of_ori_pos o).1.symm, t, ht, (r1.has_iff _).mpr (Or.inr (Or.inl rfl))⟩
      · rintro ⟨nx, t, ht, hx⟩
        obtain ⟨t1, ht1, v, hr⟩ := link_succ I hp (mP t ht) (hP t ht) hx nx
        have h1p : t1.Has p := (hr.has_iff p).mpr (Or.inl rfl)
        have ht1P : t1 ∈ P := by
          rcases List.mem_append.mp (hT.mem_iff.mp ht1) with k | k
          · exact k
          · exact (hA t1 k h1p).elim
        refine ⟨t1, ht1P, ?_⟩
        have r1 := linkE_rep h1p
        have o := I.ccw t1 ht1
        have o1 := o
        rw [r1.or_eq] at o
        rw [hr.or_eq] at o1
        have n := ne_of_ori_pos o
        have e := (t1.mem_edges_iff p x).mpr ⟨v, hr⟩
        rcases (r1.edges_iff _).mp e with k | k | k
        · simp only [Prod.mk.injEq] at k; exact k.2.symm
        · simp only [Prod.mk.injEq] at k; exact (n.1 k.1).elim
        · simp only [Prod.mk.injEq] at k; exact (n.2.2 k.1.symm).elim
  have := hperm.length_eq
  simpa using this

theorem list_min {α} (f : α → ℚ) (L : List α) (h : L ≠ []) : ∃ m ∈ L, ∀ x ∈ L, f m ≤ f x := by
  induction L with
  | nil => exact (h rfl).elim
  | cons a L ih =>
    by_cases hL : L = []
    · subst hL; exact ⟨a, by simp, by simp⟩
    · obtain ⟨m, hm, hmin⟩ := ih hL
      by_cases hc : f a ≤ f m
      · refine ⟨a, by simp, ?_⟩
        intro x hx
        rcases List.mem_cons.mp hx with rfl | hx
        · exact le_refl _
        · exact hc.trans (hmin x hx)
      · refine ⟨m, by simp [hm], ?_⟩
        intro x hx
        rcases List.mem_cons.mp hx with rfl | hx
        · exact (not_le.mp hc).le
        · exact hmin x hx

/-- Three consecutive members of a cyclic list start a rotation of it. -/
theorem rot_three {α} {h : List α} (hn : h.Nodup) (hl : 3 ≤ h.length) {u v w : α} (h1 : (u, v) ∈ cyc h)
    (h2 : (v, w) ∈ cyc h) : ∃ r, h ~r u :: v :: w :: r := by
  obtain ⟨m1, m2, rfl⟩ := List.append_of_mem (cyc_mem h1).1
  have hr : (m1 ++ u :: m2) ~r (u :: (m2 ++ m1)) := by
    have := List.isRotated_append (l := m1) (l' := u :: m2)
    simpa using this
  have hn' := hr.perm.nodup_iff.mp hn
  have hl' : 3 ≤ (u :: (m2 ++ m1)).length := by rw [← hr.perm.length_eq]; exact hl
  have h1' := (cyc_isRotated hr).mem_iff.mp h1
  have h2' := (cyc_isRotated hr).mem_iff.mp h2
  generalize m2 ++ m1 = L at hr hn' hl' h1' h2'
  match L, hr, hn', hl', h1', h2' with
  | [], _, _, hl', _, _ => simp at hl'
  | [x], _, _, hl', _, _ => simp at hl'
  | x :: y :: L, hr, hn', _, h1', h2' =>
    have e1 : v = x := cyc_succ_unique hn' h1' (by simp [cyc, path])
    subst e1
    have e2 : w = y := cyc_succ_unique hn' h2' (by simp [cyc, path])
    subst e2
    exact ⟨L, hr⟩

/-- A hole with more than three corners has a best ear. -/
theorem Hole.exists_best {W : P2 → Prop} (H : Hole s W p A h) :
    ∃ a b c r, h ~r a :: b :: c :: r ∧ Best p h a b c := by
  classical
  obtain ⟨u, v, w, h1, h2, h3⟩ := H.exists_ear
  let L := (cyc h).flatMap (fun e => ((cyc h).filter (fun f => decide (e.2 = f.1 ∧ 0 < ori e.1 e.2 f.2))).map
    (fun f => (e.1, e.2, f.2)))
  have hL : ∀ a b c, (a, b, c) ∈ L ↔ (a, b) ∈ cyc h ∧ (b, c) ∈ cyc h ∧ 0 < ori a b c := by
    intro a b c
    simp only [L, List.mem_flatMap, List.mem_map, List.mem_filter, decide_eq_true_eq, Prod.mk.injEq]
    constructor
    · rintro ⟨⟨a', b'⟩, k1, ⟨b'', c'⟩, ⟨k2, k3, k4⟩, rfl, rfl, rfl⟩
      simp only at k3 k4 ⊢
      subst k3
      exact ⟨k1, k2, k4⟩
    · rintro ⟨k1, k2, k3⟩
      exact ⟨(a, b), k1, (b, c), ⟨k2, rfl, k3⟩, rfl, rfl, rfl⟩
  have hne : L ≠ [] := List.ne_nil_of_mem ((hL u v w).mpr ⟨h1, h2, h3⟩)
  obtain ⟨⟨a, b, c⟩, hm, hmin⟩ := list_min (fun e : P2 × P2 × P2 => score p e.1 e.2.1 e.2.2) L hne
  obtain ⟨k1, k2, k3⟩ := (hL a b c).mp hm
  obtain ⟨r, hr⟩ := rot_three H.nodup H.three k1 k2
  refine ⟨a, b, c, r, hr, k3, ?_⟩
  intro u v w huv hvw ho
  exact hmin (u, v, w) ((hL u v w).mpr ⟨huv, hvw, ho⟩)

/-- Any hole can be filled. -/
theorem Hole.fill (hs : 0 < s.or) {V : P2 → Prop} (hin : ∀ x, V x → Inside s x) :
    ∀ (n : ℕ) (A : List T3) (h : List P2), Hole s (fun x => V x ∨ s.Has x) p A h → h.length = n + 3 →
      ∃ T', Inv s V T' ∧ T'.length = A.length + n + 1 := by
  intro n
  induction n with
  | zero =>
    intro A h H hl
    match h, hl, H with
    | [a, b, c], _, H =>
      exact ⟨A ++ [⟨a, b, c⟩], H.finish hs hin (Or.inl rfl), by simp⟩
  | succ n ih =>
    intro A h H hl
    obtain ⟨a, b, c, r, hr, hb⟩ := H.exists_best
    have H' := H.step hr (List.IsRotated.refl (a :: c :: r)) (by omega) hb (t := ⟨a, b, c⟩) (Or.inl rfl)
    have hlen := hr.perm.length_eq
    obtain ⟨T', h1, h2⟩ := ih _ _ H' (by simp at hlen ⊢; omega)
    exact ⟨T', h1, by simp at h2; omega⟩

/-- With no points there is only the bounding triangle. -/
theorem count_empty (I : Inv s V T) (hV : ∀ x, ¬ V x) : T.length = 1 := by
  have hrep : ∀ t ∈ T, (s.a, s.b) ∈ t.edges := by
    intro t ht
    have ho := I.ccw t ht
    have hs := I.sccw
    have hv : ∀ x, t.Has x → s.Has x := fun x hx => (I.verts t ht x hx).resolve_left (hV x)
    have n := ne_of_ori_pos ho
    have ns := ne_of_ori_pos hs
    obtain ⟨a, b, c⟩ := t
    simp only at n
    have ha := hv a (Or.inl rfl)
    have hb := hv b (Or.inr (Or.inl rfl))
    have hc := hv c (Or.inr (Or.inr rfl))
    unfold T3.Has at ha hb hc
    unfold T3.or at ho hs
    simp only at ho
    have sw := ori_swap s.a s.b s.c
    have sw2 := ori_swap23 s.a s.b s.c
    have r1 := ori_rot s.a s.b s.c
    have r2 := ori_rot' s.a s.b s.c
    have sw3 : ori s.c s.b s.a = - ori s.a s.b s.c := by unfold ori; ring
    rcases ha with rfl | rfl | rfl <;> rcases hb with rfl | rfl | rfl <;> rcases hc with rfl | rfl | rfl <;>
      first
        | (simp [T3.edges]; done)
        | (exfalso; first | exact n.1 rfl | exact n.2.1 rfl | exact n.2.2 rfl | linarith)
  match T, I, hrep with
  | [], I, _ =>
    exfalso
    have := partition I.sccw I.ccw I.chain ⟨(s.a.x + s.b.x + s.c.x) / 3, (s.a.y + s.b.y + s.c.y) / 3⟩
    have hm : HalfOpen s ⟨(s.a.x + s.b.x + s.c.x) / 3, (s.a.y + s.b.y + s.c.y) / 3⟩ := by
      have ho := I.sccw
      unfold T3.or at ho
      apply HalfOpen.of_interior
      · have : ori s.a s.b ⟨(s.a.x + s.b.x + s.c.x) / 3, (s.a.y + s.b.y + s.c.y) / 3⟩ = ori s.a s.b s.c / 3 := by
          unfold ori; ring
        rw [this]; linarith
      · have : ori s.b s.c ⟨(s.a.x + s.b.x + s.c.x) / 3, (s.a.y + s.b.y + s.c.y) / 3⟩ = ori s.a s.b s.c / 3 := by
          unfold ori; ring
        rw [this]; linarith
      · have : ori s.c s.a ⟨(s.a.x + s.b.x + s.c.x) / 3, (s.a.y + s.b.y + s.c.y) / 3⟩ = ori s.a s.b s.c / 3 := by
          unfold ori; ring
        rw [this]; linarith
    rw [if_pos hm] at this
    simp at this
  | [t], _, _ => rfl
  | t :: u :: T, I, hrep =>
    exfalso
    have hn := I.edges_nodup
    unfold edgesOf at hn
    rw [List.nodup_flatMap] at hn
    have := (List.pairwise_cons.mp hn.2).1 u (by simp)
    exact this (hrep t (by simp)) (hrep u (by simp))

/-- Removing one point removes two triangles. -/
theorem count_step (I : Inv s V T) (hp : V p) :
    ∃ T', Inv s (fun x => V x ∧ x ≠ p) T' ∧ T.length = T'.length + 2 := by
  classical
  let P := T.filter (fun t => decide (t.Has p))
  let A := T.filter (fun t => !decide (t.Has p))
  have hT : T.Perm (P ++ A) := (List.filter_append_perm _ _).symm
  have hP : ∀ t ∈ P, t.Has p := by
    intro t ht; simpa using (List.mem_filter.mp ht).2
  have hA : ∀ t ∈ A, ¬ t.Has p := by
    intro t ht; simpa using (List.mem_filter.mp ht).2
  have mP : ∀ t ∈ P, t ∈ T := fun t ht => (List.mem_filter.mp ht).1
  let L := ((P.flatMap (fun t => [t.a, t.b, t.c])).filter (fun x => decide (x ≠ p))).dedup
  have hLm : ∀ x, x ∈ L ↔ x ≠ p ∧ ∃ t ∈ P, t.Has x := by
    intro x
    simp only [L, List.mem_dedup, List.mem_filter, List.mem_flatMap, decide_eq_true_eq, T3.Has,
      List.mem_cons, List.not_mem_nil, or_false]
    exact and_comm
  have hLn : L.Nodup := List.nodup_dedup _
  obtain ⟨h, hperm, hs⟩ := exists_sorted (AngLt p) L (by
      intro x hx y hy hne
      obtain ⟨nx, t, ht, hxt⟩ := (hLm x).mp hx
      obtain ⟨ny, t', ht', hyt⟩ := (hLm y).mp hy
      exact AngLt.total nx ny (fun hd => hne
        (link_dirs I hp (mP t ht) (mP t' ht') (hP t ht) (hP t' ht') hxt hyt nx ny hd)))
    (fun x hx y hy z hz k1 k2 => AngLt.trans ((hLm x).mp hx).1 ((hLm y).mp hy).1 ((hLm z).mp hz).1 k1 k2) hLn
  have hn : h.Nodup := hperm.nodup_iff.mpr hLn
  have hm : ∀ x, x ∈ h ↔ x ≠ p ∧ ∃ t ∈ P, t.Has x := fun x => hperm.mem_iff.trans (hLm x)
  have H := (remove_hole I hp hT hP hA hn hm hs).2
  have hl := star_length I hp hT hP hA hn hm
  have h3 := H.three
  obtain ⟨T', h1, h2⟩ := Hole.fill I.sccw (V := fun x => V x ∧ x ≠ p) (fun x hx => I.inside x hx.1)
    (h.length - 3) A h H (by omega)
  refine ⟨T', h1, ?_⟩
  have := hT.length_eq
  rw [List.length_append] at this
  omega

/-- **Count**: `n` points give `2n + 1` triangles. -/
theorem count_tris (L : List P2) (hL : L.Nodup) :
    ∀ {V : P2 → Prop} {T : List T3}, Inv s V T → (∀ x, V x ↔ x ∈ L) → T.length = 2 * L.length + 1 := by
  induction L with
  | nil => intro V T I hV; exact count_empty I (fun x hx => by simpa using (hV x).mp hx)
  | cons p L ih =>
    intro V T I hV
    obtain ⟨hp, hn⟩ := List.nodup_cons.mp hL
    obtain ⟨T', I', hlen⟩ := count_step I ((hV p).mpr (by simp))
    have := ih hn I' (by
      intro x
      rw [hV, List.mem_cons]
      constructor
      · rintro ⟨h1, h2⟩; exact h1.resolve_left h2
      · intro h1; exact ⟨Or.inr h1, by rintro rfl; exact hp h1⟩)
    rw [hlen, this, List.length_cons]
    omega

end

end Verif.Tri

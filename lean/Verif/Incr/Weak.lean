import Verif.Incr.History

/-!
# Bookkeeping invariants that need nothing of float arithmetic

Whatever the geometry of the grid and the rounding of scores, a call that does not panic keeps the slot
and box bookkeeping (`SInv`), uses only image points and bounding vertices, and allocates a slot only
when all slots are in use.  The only assumption is that slot numbers fit in 16 bits.
-/

namespace Verif.Incr

open Verif.Tri Verif.Spec

/-- All corners of the live triangles are image points or bounding vertices. -/
def Corners (w h : Nat) (l : List Tri) : Prop := ∀ t ∈ l, Ok w h t.a ∧ Ok w h t.b ∧ Ok w h t.c

theorem addTriangle_len {g : Geo} {d d' : D} {t : Tri} (e : addTriangle g d t = some d') :
    d.tris.length ≤ d'.tris.length := by
  unfold addTriangle at e
  split at e
  · split at e
    · cases e; simp
    · cases e
  · cases e; simp

theorem fillEdges_len {g : Geo} {p : Pt} (es : List Edge) : ∀ {d d' : D}, fillEdges g p d es = some d' →
    d.tris.length ≤ d'.tris.length := by
  induction es with
  | nil => intro d d' e; simp only [fillEdges, Option.some.injEq] at e; rw [e]
  | cons e0 es ih =>
    intro d d' e
    simp only [fillEdges] at e
    split at e
    · obtain ⟨d1, e1, e2⟩ := Option.bind_eq_some_iff.mp e
      exact le_trans (addTriangle_len e1) (ih e2)
    · exact ih e

theorem earLoop_len {g : Geo} {fl : ℚ → ℚ} {p : Pt} (n : Nat) : ∀ {d d' : D} {ears : List Ear},
    earLoop g fl p n d ears = some d' → d.tris.length ≤ d'.tris.length := by
  induction n with
  | zero =>
    intro d d' ears e
    simp only [earLoop] at e
    obtain ⟨e0, -, e2⟩ := Option.bind_eq_some_iff.mp e
    exact addTriangle_len e2
  | succ n ih =>
    intro d d' ears e
    simp only [earLoop] at e
    obtain ⟨e0, -, e⟩ := Option.bind_eq_some_iff.mp e
    obtain ⟨d1, e1, e⟩ := Option.bind_eq_some_iff.mp e
    obtain ⟨ears', -, e⟩ := Option.bind_eq_some_iff.mp e
    exact le_trans (addTriangle_len e1) (ih e)

/-- What is kept, and how the number of slots moves from `len` to the current one. -/
structure WInv (g : Geo) (w h : Nat) (len : Nat) (d : D) : Prop where
  slots : SInv g d
  corners : Corners w h (live d)
  len : d.tris.length = max len (live d).length

theorem addTriangle_back {g : Geo} {w h len : Nat} (k : SizeOk w h) {d d' : D} {t : Tri} (e : addTriangle g d t = some d')
    (W : WInv g w h len d) (ha : Ok w h t.a) (hb : Ok w h t.b) (hc : Ok w h t.c) (hl : d'.tris.length ≤ 65536) :
    WInv g w h len d' := by
  have ht : t.freed = false := by simpa [Tri.freed] using ha.marker k
  have hlen := slots_len W.slots
  have hlt : (live d).length < 65536 := by
    unfold addTriangle at e
    split at e
    · rename_i i fr hf
      split at e
      · cases e
        rw [hf] at hlen
        simp only [List.length_cons, List.length_set] at hlen hl
        omega
      · cases e
    · cases e
      simp only [List.length_append, List.length_cons, List.length_nil] at hl
      omega
  obtain ⟨d2, a1, a2, a3, a4, -⟩ := addTriangle_spec W.slots ht hlt
  rw [e] at a1
  cases a1
  refine ⟨a2, ?_, ?_⟩
  · intro u hu
    rcases List.mem_cons.mp (a3.subset hu) with rfl | hu
    · exact ⟨ha, hb, hc⟩
    · exact W.corners u hu
  · have := a3.length_eq
    rw [List.length_cons] at this
    have := W.len
    omega

theorem fillEdges_back {g : Geo} {w h len : Nat} (k : SizeOk w h) {p : Pt} (hp : Ok w h p) (es : List Edge) :
    ∀ {d d' : D}, fillEdges g p d es = some d' → WInv g w h len d → (∀ x ∈ es, Ok w h x.1 ∧ Ok w h x.2) →
      d'.tris.length ≤ 65536 → WInv g w h len d' := by
  induction es with
  | nil => intro d d' e W _ _; simp only [fillEdges, Option.some.injEq] at e; rwa [← e]
  | cons e0 es ih =>
    intro d d' e W ok hl
    simp only [fillEdges] at e
    have ok' : ∀ x ∈ es, Ok w h x.1 ∧ Ok w h x.2 := fun x hx => ok x (List.mem_cons_of_mem _ hx)
    split at e
    · obtain ⟨d1, e1, e2⟩ := Option.bind_eq_some_iff.mp e
      have o := ok e0 List.mem_cons_self
      exact ih e2 (addTriangle_back k e1 W o.1 o.2 hp (le_trans (fillEdges_len es e2) hl)) ok' hl
    · exact ih e W ok' hl

theorem swapRemove_subset {α} (l : List α) (i : Nat) : ∀ x ∈ swapRemove l i, x ∈ l := by
  intro x hx
  unfold swapRemove at hx
  split at hx
  · exact hx
  · have := List.dropLast_subset _ hx
    rcases List.mem_or_eq_of_mem_set this with h | h
    · exact h
    · rename_i y hy
      subst h
      exact List.mem_of_getLast? hy

theorem edges_ok {w h : Nat} (acc : List Tri) : ∀ (es : List Edge), (∀ x ∈ es, Ok w h x.1 ∧ Ok w h x.2) →
    Corners w h acc → ∀ x ∈ acc.foldl addTriEdges es, Ok w h x.1 ∧ Ok w h x.2 := by
  have one : ∀ (es : List Edge) (a b : Pt), (∀ x ∈ es, Ok w h x.1 ∧ Ok w h x.2) → Ok w h a → Ok w h b →
      ∀ x ∈ addEdge es (newEdge a b), Ok w h x.1 ∧ Ok w h x.2 := by
    intro es a b hes ha hb x hx
    unfold addEdge at hx
    split at hx
    · exact hes x (swapRemove_subset _ _ x hx)
    · rcases List.mem_append.mp hx with hx | hx
      · exact hes x hx
      · rw [List.mem_singleton.mp hx]
        unfold newEdge
        split
        · exact ⟨hb, ha⟩
        · split
          · split
            · exact ⟨hb, ha⟩
            · exact ⟨ha, hb⟩
          · exact ⟨ha, hb⟩
  induction acc with
  | nil => intro es hes _ x hx; exact hes x hx
  | cons t acc ih =>
    intro es hes hc
    have o := hc t List.mem_cons_self
    refine ih _ ?_ (fun u hu => hc u (List.mem_cons_of_mem _ hu))
    exact one _ _ _ (one _ _ _ (one _ _ _ hes o.1 o.2.1) o.2.1 o.2.2) o.2.2 o.1

theorem hull_ok {w h : Nat} (p : Pt) (acc : List Tri) : ∀ (hull : List Pt), (∀ x ∈ hull, Ok w h x) →
    Corners w h acc → ∀ x ∈ acc.foldl (addTriPoints p) hull, Ok w h x := by
  have one : ∀ (hull : List Pt) (a : Pt), (∀ x ∈ hull, Ok w h x) → Ok w h a → ∀ x ∈ addPoint p hull a, Ok w h x := by
    intro hull a hh ha x hx
    unfold addPoint at hx
    split at hx
    · exact hh x hx
    · split at hx
      · exact hh x hx
      · rcases List.mem_append.mp hx with hx | hx
        · exact hh x hx
        · rw [List.mem_singleton.mp hx]; exact ha
  induction acc with
  | nil => intro hull hh _ x hx; exact hh x hx
  | cons t acc ih =>
    intro hull hh hc
    have o := hc t List.mem_cons_self
    refine ih _ ?_ (fun u hu => hc u (List.mem_cons_of_mem _ hu))
    exact one _ _ (one _ _ (one _ _ hh o.1) o.2.1) o.2.2

theorem hullInsert_mem (p v : Pt) (l : List Pt) : ∀ x ∈ hullInsert p v l, x = v ∨ x ∈ l := by
  induction l with
  | nil => intro x hx; simpa [hullInsert] using hx
  | cons u l ih =>
    intro x hx
    simp only [hullInsert] at hx
    split at hx
    · simpa using hx
    · rcases List.mem_cons.mp hx with rfl | hx
      · simp
      · rcases ih x hx with h | h
        · exact Or.inl h
        · exact Or.inr (List.mem_cons_of_mem _ h)

theorem hullSort_mem {p : Pt} {l m : List Pt} (e : hullSort p l = some m) : ∀ x ∈ m, x ∈ l := by
  unfold hullSort at e
  split at e
  · cases e
    clear * -
    induction l with
    | nil => intro x hx; exact hx
    | cons v l ih =>
      intro x hx
      rcases hullInsert_mem p v _ x hx with h | h
      · rw [h]; exact List.mem_cons_self
      · exact List.mem_cons_of_mem _ (ih x h)
  · cases e

/-- All corners of the ears are admissible. -/
def EarsOk (w h : Nat) (l : List Ear) : Prop := ∀ e ∈ l, Ok w h e.a ∧ Ok w h e.b ∧ Ok w h e.c

theorem initEars_ok {w h : Nat} (fl : ℚ → ℚ) (p : Pt) {hull : List Pt} (hh : ∀ x ∈ hull, Ok w h x) :
    EarsOk w h (initEars fl p hull) := by
  intro e he
  unfold initEars at he
  obtain ⟨i, -, he⟩ := List.mem_filterMap.mp he
  obtain ⟨a, ha, he⟩ := Option.bind_eq_some_iff.mp he
  obtain ⟨b, hb, he⟩ := Option.bind_eq_some_iff.mp he
  obtain ⟨c, hc, he⟩ := Option.bind_eq_some_iff.mp he
  cases he
  exact ⟨hh _ (List.mem_of_getElem? ha), hh _ (List.mem_of_getElem? hb), hh _ (List.mem_of_getElem? hc)⟩

theorem cutEar_ok {w h : Nat} {fl : ℚ → ℚ} {p : Pt} {ears ears' : List Ear} {index : Nat}
    (e : cutEar fl p ears index = some ears') (hE : EarsOk w h ears) : EarsOk w h ears' := by
  unfold cutEar at e
  obtain ⟨e0, h0, e⟩ := Option.bind_eq_some_iff.mp e
  obtain ⟨eb, hb, e⟩ := Option.bind_eq_some_iff.mp e
  obtain ⟨ea, ha, e⟩ := Option.bind_eq_some_iff.mp e
  cases e
  have o0 := hE _ (List.mem_of_getElem? h0)
  have ob := hE _ (List.mem_of_getElem? hb)
  have E1 : EarsOk w h (ears.set (if index = 0 then ears.length - 1 else index - 1) (mkEar fl p eb.a eb.b e0.c)) := by
    intro x hx
    rcases List.mem_or_eq_of_mem_set hx with h | h
    · exact hE x h
    · subst h; exact ⟨ob.1, ob.2.1, o0.2.2⟩
  have oa := E1 _ (List.mem_of_getElem? ha)
  intro x hx
  rcases List.mem_or_eq_of_mem_set (List.eraseIdx_subset hx) with h | h
  · exact E1 x h
  · subst h; exact ⟨o0.1, oa.2.1, oa.2.2⟩

theorem earLoop_back {g : Geo} {w h len : Nat} (k : SizeOk w h) {fl : ℚ → ℚ} {p : Pt} (n : Nat) :
    ∀ {d d' : D} {ears : List Ear}, earLoop g fl p n d ears = some d' → WInv g w h len d → EarsOk w h ears →
      d'.tris.length ≤ 65536 → WInv g w h len d' := by
  induction n with
  | zero =>
    intro d d' ears e W hE hl
    simp only [earLoop] at e
    obtain ⟨e0, h0, e⟩ := Option.bind_eq_some_iff.mp e
    have o := hE _ (List.mem_of_getElem? h0)
    exact addTriangle_back k e W o.1 o.2.1 o.2.2 hl
  | succ n ih =>
    intro d d' ears e W hE hl
    simp only [earLoop] at e
    obtain ⟨e0, h0, e⟩ := Option.bind_eq_some_iff.mp e
    obtain ⟨d1, e1, e⟩ := Option.bind_eq_some_iff.mp e
    obtain ⟨ears', h2, e⟩ := Option.bind_eq_some_iff.mp e
    have o := hE _ (List.mem_of_getElem? h0)
    exact ih e (addTriangle_back k e1 W o.1 o.2.1 o.2.2 (le_trans (earLoop_len n e) hl)) (cutEar_ok h2 hE) hl

theorem removeLoop_back {g : Geo} {w h : Nat} {check : Bool} {q : Tri → Bool} {x y : Nat} {d d' : D} {acc : List Tri}
    (e : removeLoop g check q x y (d.cells x y).length 0 d [] = some (d', acc)) (S : SInv g d)
    (C : Corners w h (live d)) : WInv g w h d.tris.length d' ∧ Corners w h acc := by
  obtain ⟨d2, acc2, h1, h2, h3, h4, h5, h6, -⟩ := removeLoop_spec check q x y (d.cells x y).length [] (d.cells x y) d []
    S (by simp) rfl (by simp)
  simp only [List.length_nil] at h1
  rw [e] at h1
  simp only [List.nil_append, Option.some.injEq, Prod.mk.injEq] at h1
  obtain ⟨rfl, rfl⟩ := h1
  have hs := slots_len h2
  exact ⟨⟨h2, fun t ht => C t (h3.symm.subset (List.mem_append_right _ ht)), by omega⟩,
    fun t ht => C t (h3.symm.subset (List.mem_append_left _ ht))⟩

/-- One call keeps the bookkeeping. -/
theorem step_back {g : Geo} {w h : Nat} (k : SizeOk w h) {fl : ℚ → ℚ} {d d' : D} {o : Op}
    (e : step g fl d o = some d') (S : SInv g d) (C : Corners w h (live d)) (ho : ∀ p, o = .ins p → InImg w h p)
    (hl : d'.tris.length ≤ 65536) : WInv g w h d.tris.length d' := by
  have hs := slots_len S
  cases o with
  | ins p =>
    simp only [step, insert] at e
    obtain ⟨r, -, e⟩ := Option.bind_eq_some_iff.mp e
    obtain ⟨c, -, e⟩ := Option.bind_eq_some_iff.mp e
    obtain ⟨⟨d1, acc⟩, e1, e⟩ := Option.bind_eq_some_iff.mp e
    have S0 : SInv g { d with pm := r.1, unique := if r.2 = 1 then d.unique + 1 else d.unique, numPoints := d.numPoints + 1 } := ⟨S.free_nodup, S.free_iff, S.cell_nodup, S.cell_iff⟩
    obtain ⟨W, C1⟩ := removeLoop_back e1 S0 C
    exact fillEdges_back k (Or.inl (ho p rfl)) _ e W (edges_ok acc [] (by simp) C1) hl
  | rem p =>
    simp only [step, remove] at e
    obtain ⟨r, -, e⟩ := Option.bind_eq_some_iff.mp e
    split at e
    · cases e
      exact ⟨⟨S.free_nodup, S.free_iff, S.cell_nodup, S.cell_iff⟩, C, by simp only [live] at hs ⊢; omega⟩
    · obtain ⟨c, -, e⟩ := Option.bind_eq_some_iff.mp e
      obtain ⟨⟨d1, acc⟩, e1, e⟩ := Option.bind_eq_some_iff.mp e
      obtain ⟨hull, e2, e⟩ := Option.bind_eq_some_iff.mp e
      have S0 : SInv g { d with numPoints := d.numPoints - 1, pm := r.1, unique := d.unique - 1 } :=
        ⟨S.free_nodup, S.free_iff, S.cell_nodup, S.cell_iff⟩
      obtain ⟨W, C1⟩ := removeLoop_back e1 S0 C
      refine earLoop_back k _ e W (initEars_ok fl p ?_) hl
      intro x hx
      exact hull_ok p acc [] (by simp) C1 x (hullSort_mem e2 x hx)

theorem removeLoop_len {g : Geo} {check : Bool} {q : Tri → Bool} {x y : Nat} (n : Nat) : ∀ {i : Nat} {d d' : D}
    {acc acc' : List Tri}, removeLoop g check q x y n i d acc = some (d', acc') → d'.tris.length = d.tris.length := by
  induction n with
  | zero => intro i d d' acc acc' e; simp only [removeLoop, Option.some.injEq, Prod.mk.injEq] at e; rw [e.1]
  | succ n ih =>
    intro i d d' acc acc' e
    simp only [removeLoop] at e
    split at e
    · cases e
    · split at e
      · cases e
      · split at e
        · cases e
        · split at e
          · rw [ih e]
            simp only [markFree]
            split <;> simp
          · exact ih e

theorem step_len {g : Geo} {fl : ℚ → ℚ} {d d' : D} {o : Op} (e : step g fl d o = some d') :
    d.tris.length ≤ d'.tris.length := by
  cases o with
  | ins p =>
    simp only [step, insert] at e
    obtain ⟨r, -, e⟩ := Option.bind_eq_some_iff.mp e
    obtain ⟨c, -, e⟩ := Option.bind_eq_some_iff.mp e
    obtain ⟨⟨d1, acc⟩, e1, e⟩ := Option.bind_eq_some_iff.mp e
    exact le_trans (removeLoop_len _ e1).ge (fillEdges_len _ e)
  | rem p =>
    simp only [step, remove] at e
    obtain ⟨r, -, e⟩ := Option.bind_eq_some_iff.mp e
    split at e
    · cases e; exact le_refl _
    · obtain ⟨c, -, e⟩ := Option.bind_eq_some_iff.mp e
      obtain ⟨⟨d1, acc⟩, e1, e⟩ := Option.bind_eq_some_iff.mp e
      obtain ⟨hull, e2, e⟩ := Option.bind_eq_some_iff.mp e
      exact le_trans (removeLoop_len _ e1).ge (earLoop_len _ e)

/-- Every history that does not panic, with any arithmetic whatsoever. -/
theorem exec_back {g : Geo} {w h : Nat} (k : SizeOk w h) {fl : ℚ → ℚ} (ops : List Op) {d : D}
    (ho : ∀ p, Op.ins p ∈ ops → InImg w h p) (e : exec g fl w h ops = some d) (hl : d.tris.length ≤ 65536) :
    SInv g d ∧ Corners w h (live d) ∧
    (∃ pre d', pre <+: ops ∧ exec g fl w h pre = some d' ∧ d.tris.length = (live d').length) ∧
    (∀ pre d', pre <+: ops → exec g fl w h pre = some d' → (live d').length ≤ d.tris.length) := by
  induction ops using List.reverseRecOn generalizing d with
  | nil =>
    unfold exec newDelaunay at e
    obtain ⟨d1, e1, e⟩ := Option.bind_eq_some_iff.mp e
    obtain ⟨d0, e0, e1⟩ := Option.bind_eq_some_iff.mp e1
    have S0 : SInv g ⟨[], [], fun _ _ => [], [], ⟨⟨0, 0⟩, ⟨0, 0⟩, ⟨0, 0⟩⟩, 0, 0⟩ :=
      ⟨by simp, by simp, by simp, by simp⟩
    have hd : d.tris = d0.tris := by cases e1; simp only [run, List.foldlM_nil] at e; cases e; rfl
    have W0 : WInv g w h 0 ⟨[], [], fun _ _ => [], [], ⟨⟨0, 0⟩, ⟨0, 0⟩, ⟨0, 0⟩⟩, 0, 0⟩ :=
      ⟨S0, by simp [Corners, live], by simp [live]⟩
    have W := addTriangle_back k e0 W0 (Or.inr (by simp [Tri.hasVertex])) (Or.inr (by simp [Tri.hasVertex]))
      (Or.inr (by simp [Tri.hasVertex])) (by rw [← hd]; exact hl)
    have L : live d = live d0 := by unfold live; rw [hd]
    have len := W.len
    have S : SInv g d := by
      have S1 := W.slots
      cases e1
      simp only [run, List.foldlM_nil] at e
      cases e
      exact ⟨S1.free_nodup, S1.free_iff, S1.cell_nodup, S1.cell_iff⟩
    have e3 : exec g fl w h [] = some d := by
      unfold exec newDelaunay
      simp only [e0, Option.bind_eq_bind, Option.bind_some]
      cases e1
      exact e
    refine ⟨S, by rw [L]; exact W.corners, ⟨[], d, List.prefix_rfl, e3, by rw [hd, L, len]; simp⟩, ?_⟩
    intro pre d' hp e'
    rw [List.prefix_nil] at hp
    subst hp
    rw [e3] at e'
    cases e'
    rw [hd, L, len]
    simp
  | append_singleton ops o ih =>
    have e' := e
    rw [exec_snoc] at e
    obtain ⟨d1, e1, e2⟩ := Option.bind_eq_some_iff.mp e
    have ho1 : ∀ p, Op.ins p ∈ ops → InImg w h p := fun p hp => ho p (by simp [hp])
    have hl1 : d1.tris.length ≤ 65536 := le_trans (step_len e2) hl
    obtain ⟨S1, C1, ⟨pre, d2, p1, p2, p3⟩, q1⟩ := ih ho1 e1 hl1
    have W := step_back k e2 S1 C1 (fun p hp => ho p (by simp [hp])) hl
    have hlen := W.len
    refine ⟨W.slots, W.corners, ?_, ?_⟩
    · rcases le_total d1.tris.length (live d).length with hc | hc
      · exact ⟨ops ++ [o], d, List.prefix_rfl, e', by omega⟩
      · exact ⟨pre, d2, p1.trans (List.prefix_append _ _), p2, by omega⟩
    · intro pre' d' hp' e3
      rcases List.prefix_concat_iff.mp hp' with h1 | h1
      · subst h1
        rw [e'] at e3
        cases e3
        omega
      · have := q1 pre' d' h1 e3
        omega

end Verif.Incr

import Verif.Alg.Cache

/-!
# What the algorithms use of a fitness function, and what a mutation record means
-/

namespace Verif.Alg

open Verif.Fit

/-- `ms` records exactly how `ps` became `ps'`: one record per changed index, with the old and the new point; new points are
in the domain `Dom`. -/
structure Mutates (Dom : NP → Prop) (ps ps' : List NP) (ms : List Mut) : Prop where
  len : ps'.length = ps.length
  nodup : (ms.map Mut.index).Nodup
  old : ∀ m ∈ ms, ps[m.index]? = some m.old
  new : ∀ m ∈ ms, ps'[m.index]? = some m.new
  other : ∀ i, (∀ m ∈ ms, m.index ≠ i) → ps'[i]? = ps[i]?
  dom : ∀ m ∈ ms, Dom m.new

/-- What is needed of a fitness function: `Repr d ps` says that `d` is a triangulation of the points `ps`, `n` is the
number of points of a member. -/
structure Laws {Dt K : Type} (F : Fun Dt K) (ok : K → Prop) (Dom : NP → Prop) (n : Nat) (Repr : Dt → List NP → Prop) : Prop where
  same : SameOK F ok
  build : ∀ ps, ps.length = n → (∀ p ∈ ps, Dom p) → ∃ d0 d, F.new = some d0 ∧ insAll F d0 ps = some d ∧ Repr d ps
  upd : ∀ d qs o ps ps' ms, Repr d qs → Repr o ps → Mutates Dom ps ps' ms → ∃ d', applyMuts F (F.set d o) ms = some d' ∧ Repr d' ps'
  key : ∀ d ps, Repr d ps → ∀ k ∈ F.keys d, ok k ∧ ∃ v, F.val k = some v

theorem Laws.plain {Dt K : Type} {F : Fun Dt K} {ok : K → Prop} {Dom : NP → Prop} {n : Nat} {Repr : Dt → List NP → Prop}
    (L : Laws F ok Dom n Repr) {d : Dt} {ps : List NP} (h : Repr d ps) : ∃ v, Alg.plain F d = some v := by
  obtain ⟨l, hl⟩ := vals_some (fun k hk => (L.key d ps h k hk).2)
  exact ⟨F.fin l, by unfold Alg.plain; rw [hl]; rfl⟩

variable {Dom : NP → Prop} {ps ps' : List NP} {ms : List Mut}

theorem Mutates.refl (Dom : NP → Prop) (ps : List NP) : Mutates Dom ps ps [] :=
  ⟨rfl, by simp, by simp, by simp, by simp, by simp⟩

theorem map_get (l : List NP) : l.map some = (List.range l.length).map (fun i => l[i]?) := by
  apply List.ext_getElem
  · simp
  · intro i h1 h2
    have : i < l.length := by simpa using h1
    simp [this]

/-- As bags: some points stay, the old ones are replaced by the new ones. -/
theorem Mutates.bag (M : Mutates Dom ps ps' ms) :
    ∃ rest : List NP, ps.Perm (ms.map Mut.old ++ rest) ∧ ps'.Perm (ms.map Mut.new ++ rest) := by
  have hlt : ∀ m ∈ ms, m.index < ps.length := by
    intro m hm
    exact (List.getElem?_eq_some_iff.mp (M.old m hm)).1
  set keep := (List.range ps.length).filter (fun i => decide (i ∉ ms.map Mut.index)) with hkeep
  have hperm : (List.range ps.length).Perm (ms.map Mut.index ++ keep) := by
    rw [List.perm_ext_iff_of_nodup List.nodup_range]
    · intro i
      simp only [List.mem_range, List.mem_append, hkeep, List.mem_filter, decide_eq_true_eq]
      constructor
      · intro hi
        by_cases h : i ∈ ms.map Mut.index
        · exact Or.inl h
        · exact Or.inr ⟨hi, h⟩
      · rintro (h | h)
        · obtain ⟨m, hm, rfl⟩ := List.mem_map.mp h
          exact hlt m hm
        · exact h.1
    · rw [List.nodup_append]
      refine ⟨M.nodup, List.nodup_range.sublist List.filter_sublist, ?_⟩
      intro a ha b hb hab
      rw [hkeep, List.mem_filter] at hb
      subst hab
      simp at hb
      obtain ⟨m, hm, e⟩ := List.mem_map.mp ha
      exact hb.2 m hm e
  have hk : ∀ i ∈ keep, ps'[i]? = ps[i]? := by
    intro i hi
    rw [hkeep, List.mem_filter] at hi
    refine M.other i ?_
    intro m hm e
    simp at hi
    exact hi.2 m hm e
  -- points that stay
  obtain ⟨rest, hrest⟩ : ∃ rest : List NP, rest.map some = keep.map (fun i => ps[i]?) := by
    refine ⟨keep.filterMap (fun i => ps[i]?), ?_⟩
    have : ∀ l : List Nat, (∀ i ∈ l, i < ps.length) → (l.filterMap (fun i => ps[i]?)).map some = l.map (fun i => ps[i]?) := by
      intro l
      induction l with
      | nil => intro _; rfl
      | cons i l ih =>
        intro h
        have hi := h i (by simp)
        rw [List.filterMap_cons_some (List.getElem?_eq_getElem hi)]
        simp only [List.map_cons]
        rw [ih (fun j hj => h j (by simp [hj])), List.getElem?_eq_getElem hi]
    refine this keep ?_
    intro i hi
    rw [hkeep, List.mem_filter] at hi
    exact List.mem_range.mp hi.1
  have inj : ∀ {l l' : List NP}, (l.map some).Perm (l'.map some) → l.Perm l' := by
    intro l l' h
    have := h.filterMap id
    simpa [List.filterMap_map] using this
  have eo : (ms.map Mut.index).map (fun i => ps[i]?) = (ms.map Mut.old).map some := by
    rw [List.map_map, List.map_map]
    exact List.map_congr_left fun m hm => M.old m hm
  have en : (ms.map Mut.index).map (fun i => ps'[i]?) = (ms.map Mut.new).map some := by
    rw [List.map_map, List.map_map]
    exact List.map_congr_left fun m hm => M.new m hm
  refine ⟨rest, inj ?_, inj ?_⟩
  · rw [map_get ps, List.map_append, hrest, ← eo, ← List.map_append]
    exact hperm.map _
  · rw [map_get ps', List.map_append, hrest, ← en, M.len]
    have : keep.map (fun i => ps[i]?) = keep.map (fun i => ps'[i]?) := List.map_congr_left fun i hi => (hk i hi).symm
    rw [this, ← List.map_append]
    exact hperm.map _

theorem Mutates.domain (M : Mutates Dom ps ps' ms) (h : ∀ p ∈ ps, Dom p) : ∀ p ∈ ps', Dom p := by
  intro p hp
  obtain ⟨rest, h1, h2⟩ := M.bag
  rcases List.mem_append.mp (h2.mem_iff.mp hp) with h' | h'
  · obtain ⟨m, hm, rfl⟩ := List.mem_map.mp h'
    exact M.dom m hm
  · exact h p (h1.mem_iff.mpr (List.mem_append_right _ h'))

end Verif.Alg

import Verif.Incr.Model
import Mathlib.Data.List.Nodup
import Mathlib.Data.List.Perm.Lattice
import Mathlib.Data.List.Perm.Subperm

/-!
# List lemmas: swap-removal, toggled edge lists
-/

namespace Verif.Incr

theorem findIdx?_split {α} {q : α → Bool} {l : List α} {i : Nat} (h : l.findIdx? q = some i) :
    ∃ l1 e l2, l = l1 ++ e :: l2 ∧ l1.length = i ∧ q e = true ∧ ∀ x ∈ l1, q x = false := by
  induction l generalizing i with
  | nil => simp at h
  | cons a l ih =>
    rw [List.findIdx?_cons] at h
    by_cases ha : q a = true
    · simp only [ha, if_true] at h
      cases h
      exact ⟨[], a, l, rfl, rfl, ha, by simp⟩
    · simp only [ha] at h
      rw [if_neg (by simp)] at h
      cases hl : l.findIdx? q with
      | none => simp [hl] at h
      | some j =>
        simp [hl] at h
        obtain ⟨l1, e, l2, rfl, hj, he, h1⟩ := ih hl
        refine ⟨a :: l1, e, l2, rfl, by simp [hj, ← h], he, ?_⟩
        intro x hx
        rcases List.mem_cons.mp hx with rfl | hx
        · simpa using ha
        · exact h1 x hx

theorem swapRemove_eq {α} (l1 : List α) (e : α) (l2 : List α) :
    ∃ m, swapRemove (l1 ++ e :: l2) l1.length = l1 ++ m ∧ m.Perm l2 := by
  unfold swapRemove
  rcases List.eq_nil_or_concat l2 with rfl | ⟨l3, z, rfl⟩
  · exact ⟨[], by simp, List.Perm.refl _⟩
  · have h1 : (l1 ++ e :: (l3.concat z)).getLast? = some z := by
      rw [List.concat_eq_append, ← List.cons_append, ← List.append_assoc, List.getLast?_concat]
    rw [h1]
    simp only
    have h2 : (l1 ++ e :: (l3.concat z)).set l1.length z = (l1 ++ z :: l3) ++ [z] := by
      rw [List.set_append_right _ _ (le_refl _)]
      simp
    rw [h2, List.dropLast_concat]
    simp only [List.concat_eq_append]
    exact ⟨z :: l3, rfl, List.perm_append_comm (l₁ := [z]) (l₂ := l3)⟩

theorem swapRemove_split {α} (l1 : List α) (e : α) (l2 : List α) :
    (swapRemove (l1 ++ e :: l2) l1.length).Perm (l1 ++ l2) := by
  obtain ⟨m, h1, h2⟩ := swapRemove_eq l1 e l2
  rw [h1]
  exact h2.append_left l1

theorem idxOf_split {α} [BEq α] [LawfulBEq α] {l : List α} {e : α} (h : e ∈ l) :
    ∃ l1 l2, l = l1 ++ e :: l2 ∧ l.idxOf e = l1.length ∧ e ∉ l1 := by
  induction l with
  | nil => simp at h
  | cons a l ih =>
    by_cases ha : (a == e) = true
    · obtain rfl := eq_of_beq ha
      exact ⟨[], l, rfl, by simp, by simp⟩
    · have : e ∈ l := by
        rcases List.mem_cons.mp h with h | h
        · exact (ha (by simp [h])).elim
        · exact h
      obtain ⟨l1, l2, h1, h2, h3⟩ := ih this
      refine ⟨a :: l1, l2, by rw [h1]; rfl, ?_, ?_⟩
      · rw [List.idxOf_cons_ne _ (fun h => ha (by simp [h])), h2]; rfl
      · intro hm
        rcases List.mem_cons.mp hm with hm | hm
        · exact ha (by simp [hm])
        · exact h3 hm

/-- Removing the first occurrence by swapping is a permutation of erasing it. -/
theorem swapRemove_idxOf {α} [BEq α] [LawfulBEq α] {l : List α} {e : α} (h : e ∈ l) :
    (swapRemove l (l.idxOf e)).Perm (l.erase e) := by
  obtain ⟨l1, l2, h1, h2, h3⟩ := idxOf_split h
  rw [h2, h1, List.erase_append_right _ h3, List.erase_cons_head]
  exact swapRemove_split l1 e l2

theorem addEdge_nodup {es : List Edge} (h : es.Nodup) (e : Edge) : (addEdge es e).Nodup := by
  unfold addEdge
  split
  · rename_i he
    exact (swapRemove_idxOf he).nodup_iff.mpr (h.erase e)
  · rename_i he
    exact List.nodup_append.mpr ⟨h, by simp, by
      intro a ha b hb hab
      simp only [List.mem_cons, List.not_mem_nil, or_false] at hb
      subst hb; subst hab; exact he ha⟩

theorem mem_addEdge {es : List Edge} (h : es.Nodup) (e f : Edge) :
    f ∈ addEdge es e ↔ (if f = e then f ∉ es else f ∈ es) := by
  unfold addEdge
  by_cases he : e ∈ es
  · rw [if_pos he, (swapRemove_idxOf he).mem_iff, h.mem_erase_iff]
    split
    · rename_i hf; subst hf; simp [he]
    · rename_i hf; simp [hf]
  · rw [if_neg he]
    split
    · rename_i hf; subst hf; simp [he]
    · rename_i hf; simp [hf]

/-- Undirected edges of a list of triangles, in the order they are toggled. -/
def undir (L : List Tri) : List Edge :=
  L.flatMap fun t => [newEdge t.a t.b, newEdge t.b t.c, newEdge t.c t.a]

theorem foldl_toggle (es L : List Edge) (h : es.Nodup) :
    (L.foldl addEdge es).Nodup ∧
    ∀ f, f ∈ L.foldl addEdge es ↔ (if L.count f % 2 = 0 then f ∈ es else f ∉ es) := by
  induction L generalizing es with
  | nil => simp [h]
  | cons e L ih =>
    obtain ⟨h1, h2⟩ := ih (addEdge es e) (addEdge_nodup h e)
    refine ⟨h1, fun f => ?_⟩
    rw [List.foldl_cons, h2 f, mem_addEdge h, List.count_cons]
    by_cases hf : f = e
    · subst hf
      simp only [if_true, beq_self_eq_true]
      rcases Nat.mod_two_eq_zero_or_one (L.count f) with k | k
      · rw [if_pos k, if_neg (by omega)]
      · rw [if_neg (by omega), if_pos (by omega)]; tauto
    · have : (e == f) = false := by simpa using fun h => hf h.symm
      simp [hf, this]

theorem foldl_addTriEdges (L : List Tri) (es : List Edge) :
    L.foldl addTriEdges es = (undir L).foldl addEdge es := by
  induction L generalizing es with
  | nil => rfl
  | cons t L ih =>
    rw [List.foldl_cons, ih]
    simp [undir, List.flatMap_cons, addTriEdges]

/-- The boundary list: edges that occur an odd number of times. -/
theorem boundary_list (L : List Tri) :
    (L.foldl addTriEdges []).Nodup ∧
    ∀ f, f ∈ L.foldl addTriEdges [] ↔ (undir L).count f % 2 = 1 := by
  rw [foldl_addTriEdges]
  obtain ⟨h1, h2⟩ := foldl_toggle [] (undir L) (by simp)
  refine ⟨h1, fun f => ?_⟩
  rw [h2]
  rcases Nat.mod_two_eq_zero_or_one ((undir L).count f) with k | k <;> simp [k]

theorem addPoint_spec (p : Pt) (h : List Pt) (po : Pt) (hn : h.Nodup) :
    (addPoint p h po).Nodup ∧ ∀ x, x ∈ addPoint p h po ↔ x ∈ h ∨ (x = po ∧ x ≠ p) := by
  unfold addPoint
  split
  · rename_i k; subst k
    exact ⟨hn, fun x => by tauto⟩
  · rename_i k
    split
    · rename_i m
      refine ⟨hn, fun x => ⟨Or.inl, ?_⟩⟩
      rintro (hx | ⟨rfl, _⟩)
      · exact hx
      · exact m
    · rename_i m
      refine ⟨List.nodup_append.mpr ⟨hn, by simp, ?_⟩, fun x => ?_⟩
      · intro a ha b hb hab
        simp only [List.mem_cons, List.not_mem_nil, or_false] at hb
        subst hb; subst hab; exact m ha
      · simp only [List.mem_append, List.mem_cons, List.not_mem_nil, or_false]
        constructor
        · rintro (hx | rfl)
          · exact Or.inl hx
          · exact Or.inr ⟨rfl, k⟩
        · rintro (hx | ⟨rfl, _⟩)
          · exact Or.inl hx
          · exact Or.inr rfl

/-- The collected hull: every vertex other than `p`, once. -/
theorem hull_list (p : Pt) (L : List Tri) (h : List Pt) (hn : h.Nodup) :
    (L.foldl (addTriPoints p) h).Nodup ∧
    ∀ x, x ∈ L.foldl (addTriPoints p) h ↔ x ∈ h ∨ (x ≠ p ∧ ∃ t ∈ L, x = t.a ∨ x = t.b ∨ x = t.c) := by
  induction L generalizing h with
  | nil => simp [hn]
  | cons t L ih =>
    rw [List.foldl_cons]
    obtain ⟨n1, m1⟩ := addPoint_spec p h t.a hn
    obtain ⟨n2, m2⟩ := addPoint_spec p _ t.b n1
    obtain ⟨n3, m3⟩ := addPoint_spec p _ t.c n2
    obtain ⟨n4, m4⟩ := ih _ n3
    refine ⟨n4, fun x => ?_⟩
    refine (m4 x).trans ?_
    rw [m3, m2, m1]
    constructor
    · rintro ((((h | h) | h) | h) | ⟨h1, t', h2, h3⟩)
      · exact Or.inl h
      · exact Or.inr ⟨h.2, t, by simp, Or.inl h.1⟩
      · exact Or.inr ⟨h.2, t, by simp, Or.inr (Or.inl h.1)⟩
      · exact Or.inr ⟨h.2, t, by simp, Or.inr (Or.inr h.1)⟩
      · exact Or.inr ⟨h1, t', by simp [h2], h3⟩
    · rintro (h | ⟨h1, t', h2, h3⟩)
      · exact Or.inl (Or.inl (Or.inl (Or.inl h)))
      · rcases List.mem_cons.mp h2 with rfl | h2
        · rcases h3 with h3 | h3 | h3
          · exact Or.inl (Or.inl (Or.inl (Or.inr ⟨h3, h1⟩)))
          · exact Or.inl (Or.inl (Or.inr ⟨h3, h1⟩))
          · exact Or.inl (Or.inr ⟨h3, h1⟩)
        · exact Or.inr ⟨h1, t', h2, h3⟩

/-- `setSlice` yields the source whatever the buffer held. -/
theorem setSlice_eq {α} (z : α) (buf src : List α) : setSlice z buf src = src := by
  unfold setSlice goCopy
  simp only
  split
  · rename_i h
    rw [List.length_take, min_eq_left h.le, List.take_length, List.drop_take, Nat.sub_self]
    simp
  · rename_i h
    split
    · simp
    · rename_i h'
      have : buf.length = src.length := by omega
      rw [this, List.take_length, ← this, List.drop_length, List.append_nil]

end Verif.Incr

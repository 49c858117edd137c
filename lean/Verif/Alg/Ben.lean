import Verif.Alg.Modified
import Verif.Alg.Gen

/-!
# The collector of the modified genetic algorithm
-/

namespace Verif.Alg

open Verif.Fit

/-- `b` holds, for each point index that a candidate mutates, one candidate with the greatest value. -/
structure BenOK (V : Nat → ℚ) (C : Nat → Mut → Prop) (b : Ben) : Prop where
  nodup : (b.map fun x => x.1.index).Nodup
  mem : ∀ x ∈ b, C x.2 x.1
  max : ∀ i m, C i m → ∃ x ∈ b, x.1.index = m.index ∧ V i ≤ V x.2

theorem BenOK.congr {V : Nat → ℚ} {C C' : Nat → Mut → Prop} {b : Ben} (h : BenOK V C b) (e : ∀ i m, C i m ↔ C' i m) : BenOK V C' b :=
  ⟨h.nodup, fun x hx => (e _ _).mp (h.mem x hx), fun i m hm => h.max i m ((e _ _).mpr hm)⟩

theorem mem_set_ne {α : Type} {l : List α} {j : Nat} {x o y : α} (hx : x ∈ l) (ho : l[j]? = some o) (hne : x ≠ o) : x ∈ l.set j y := by
  obtain ⟨i, hi⟩ := List.getElem?_of_mem hx
  have hij : j ≠ i := by
    rintro rfl
    rw [ho] at hi
    exact hne (Option.some.inj hi).symm
  exact List.mem_of_getElem? (by rw [List.getElem?_set_ne hij]; exact hi)

theorem BenOK.step {V : Nat → ℚ} {C : Nat → Mut → Prop} {b : Ben} (h : BenOK V C b) {fit : List ℚ} {index : Nat} (m : Mut)
    (h1 : fit[index]? = some (V index)) (h2 : ∀ i m', C i m' → fit[i]? = some (V i)) :
    ∃ b', benStep fit index b m = some b' ∧ BenOK V (fun i m' => C i m' ∨ (i = index ∧ m' = m)) b' := by
  unfold benStep
  cases hf : b.findIdx? (fun o => decide (m.index = o.1.index)) with
  | none =>
    rw [List.findIdx?_eq_none_iff] at hf
    refine ⟨_, rfl, ?_, ?_, ?_⟩
    · rw [List.map_append, List.nodup_append]
      refine ⟨h.nodup, by simp, ?_⟩
      intro x hx y hy e
      obtain ⟨o, ho, rfl⟩ := List.mem_map.mp hx
      simp only [List.map_cons, List.map_nil, List.mem_singleton] at hy
      have := hf o ho
      simp only [decide_eq_false_iff_not] at this
      exact this (by rw [← hy, ← e])
    · intro x hx
      rcases List.mem_append.mp hx with h' | h'
      · exact Or.inl (h.mem x h')
      · rw [List.mem_singleton] at h'
        subst h'
        exact Or.inr ⟨rfl, rfl⟩
    · rintro i m' (hc | ⟨rfl, rfl⟩)
      · obtain ⟨x, hx, h3⟩ := h.max i m' hc
        exact ⟨x, List.mem_append_left _ hx, h3⟩
      · exact ⟨(m', i), by simp, rfl, le_rfl⟩
  | some j =>
    rw [List.findIdx?_eq_some_iff_getElem] at hf
    obtain ⟨hj, hm, -⟩ := hf
    have ho : b[j]? = some b[j] := List.getElem?_eq_getElem hj
    simp only [decide_eq_true_eq] at hm
    have hoC := h.mem _ (List.getElem_mem hj)
    simp only [ho, h1, h2 _ _ hoC, Option.bind_eq_bind, Option.bind_some]
    refine ⟨_, rfl, ?_⟩
    split
    · rename_i hgt
      refine ⟨?_, ?_, ?_⟩
      · have : (b.set j (m, index)).map (fun x => x.1.index) = b.map fun x => x.1.index := by
          rw [List.map_set]
          apply List.ext_getElem?
          intro t
          rw [List.getElem?_set]
          split
          · rename_i e
            subst e
            rw [List.length_map, if_pos hj, List.getElem?_map, ho]
            simp [hm]
          · rfl
        rw [this]
        exact h.nodup
      · intro x hx
        rcases List.mem_or_eq_of_mem_set hx with h' | h'
        · exact Or.inl (h.mem x h')
        · subst h'
          exact Or.inr ⟨rfl, rfl⟩
      · have hnew : (m, index) ∈ b.set j (m, index) := List.mem_of_getElem? (by rw [List.getElem?_set_self hj])
        rintro i m' (hc | ⟨rfl, rfl⟩)
        · obtain ⟨x, hx, h3, h4⟩ := h.max i m' hc
          by_cases hxo : x = b[j]
          · subst hxo
            exact ⟨_, hnew, by rw [← h3]; exact hm, h4.trans (le_of_lt hgt)⟩
          · exact ⟨x, mem_set_ne hx ho hxo, h3, h4⟩
        · exact ⟨_, hnew, rfl, le_rfl⟩
    · rename_i hgt
      refine ⟨h.nodup, fun x hx => Or.inl (h.mem x hx), ?_⟩
      rintro i m' (hc | ⟨rfl, rfl⟩)
      · exact h.max i m' hc
      · exact ⟨_, List.getElem_mem hj, hm.symm, not_lt.mp hgt⟩

theorem BenOK.fold {V : Nat → ℚ} {fit : List ℚ} {index : Nat} (h1 : fit[index]? = some (V index)) : ∀ (ms : List Mut) {C : Nat → Mut → Prop} {b : Ben},
    BenOK V C b → (∀ i m', C i m' → fit[i]? = some (V i)) →
    ∃ b', ms.foldlM (benStep fit index) b = some b' ∧ BenOK V (fun i m' => C i m' ∨ (i = index ∧ m' ∈ ms)) b' := by
  intro ms
  induction ms with
  | nil => intro C b h _; exact ⟨b, rfl, h.congr (by simp)⟩
  | cons m ms ih =>
    intro C b h h2
    obtain ⟨b1, e1, hb1⟩ := h.step m h1 h2
    obtain ⟨b2, e2, hb2⟩ := ih hb1 (by
      rintro i m' (hc | ⟨rfl, _⟩)
      · exact h2 i m' hc
      · exact h1)
    refine ⟨b2, ?_, hb2.congr ?_⟩
    · rw [List.foldlM_cons, e1]; exact e2
    · intro i m'
      rw [List.mem_cons]
      tauto

/-- The mutations of members in `ar` of base `j` that beat their base. -/
def Cand (V : Nat → ℚ) (muts : List (List Mut)) (cutoff j : Nat) (ar : List Nat) (i : Nat) (m : Mut) : Prop :=
  i ∈ ar ∧ i % cutoff = j ∧ V j < V i ∧ ∃ ms, muts[i]? = some ms ∧ m ∈ ms

/-- The collector's state after the results of `ar`. -/
structure RecvInv (V : Nat → ℚ) (muts : List (List Mut)) (cutoff : Nat) (fit0 : List ℚ) (ar : List Nat) (st : List ℚ × List Ben) : Prop where
  fit : st.1 = collect fit0 (ar.map fun i => (i, V i))
  len : st.2.length = cutoff
  ben : ∀ (j : Nat) b, st.2[j]? = some b → BenOK V (Cand V muts cutoff j ar) b

theorem recv_spec {V : Nat → ℚ} {muts : List (List Mut)} {cutoff lim : Nat} {fit0 : List ℚ} (hc : 1 ≤ cutoff)
    (hl : lim ≤ fit0.length) (hm : lim ≤ muts.length) (hV : ∀ j < cutoff, fit0[j]? = some (V j)) (ar : List Nat) :
    (∀ i ∈ ar, i < lim) → ∃ st, (ar.map fun i => (i, V i)).foldlM (recvStep cutoff muts) (fit0, List.replicate cutoff []) = some st ∧
      RecvInv V muts cutoff fit0 ar st := by
  induction ar using List.reverseRecOn with
  | nil =>
    intro _
    refine ⟨_, rfl, rfl, by simp, ?_⟩
    intro j b hb
    rw [List.getElem?_replicate] at hb
    split at hb
    · cases hb
      exact ⟨by simp, by simp, by rintro i m ⟨h, _⟩; simp at h⟩
    · cases hb
  | append_singleton ar i ih =>
    intro har
    obtain ⟨st, e, R⟩ := ih fun x hx => har x (List.mem_append_left _ hx)
    have hi : i < lim := har i (by simp)
    have hget : ∀ (x : Nat), (st.1.set i (V i))[x]? = if x ∈ ar ++ [i] then some (V x) else fit0[x]? := by
      intro x
      have : st.1.set i (V i) = collect fit0 ((ar ++ [i]).map fun i => (i, V i)) := by
        rw [List.map_append, R.fit]
        unfold collect
        rw [List.foldl_append]
        rfl
      rw [this, collect_get (ar ++ [i]) fit0 x (fun y hy => by have := har y hy; omega)]
    have hm1 : muts[i]? = some (muts[i]'(by omega)) := List.getElem?_eq_getElem _
    have hjl : i % cutoff < cutoff := Nat.mod_lt _ hc
    have hbase : (st.1.set i (V i))[i % cutoff]? = some (V (i % cutoff)) := by
      rw [hget]
      split
      · rfl
      · exact hV _ hjl
    have hb1 : st.2[i % cutoff]? = some (st.2[i % cutoff]'(by rw [R.len]; exact hjl)) := List.getElem?_eq_getElem _
    obtain ⟨b', hb', hB⟩ := BenOK.fold (V := V) (fit := st.1.set i (V i)) (index := i) (by rw [hget, if_pos (by simp)]) (muts[i]'(by omega))
      (R.ben _ _ hb1) (by
        rintro x m ⟨hx, _⟩
        rw [hget, if_pos (List.mem_append_left _ hx)])
    have hc0 : ¬ cutoff = 0 := by omega
    rw [List.map_append, List.foldlM_append, e]
    simp only [List.map_cons, List.map_nil, List.foldlM_cons, List.foldlM_nil, Option.bind_eq_bind, Option.bind_some]
    have hfit : st.1.set i (V i) = collect fit0 ((ar ++ [i]).map fun i => (i, V i)) := by
      rw [List.map_append, R.fit]
      unfold collect
      rw [List.foldl_append]
      rfl
    by_cases hgt : V i > V (i % cutoff)
    · refine ⟨(st.1.set i (V i), st.2.set (i % cutoff) b'), ?_, hfit, ?_, ?_⟩
      · unfold recvStep setBeneficial
        simp only [hc0, if_false, hbase, Option.bind_eq_bind, Option.bind_some, hgt, if_true, hm1, hb1, hb']
        rfl
      · simp only [List.length_set]; exact R.len
      · intro j b hb
        simp only at hb
        rw [List.getElem?_set] at hb
        split at hb
        · rename_i ej
          subst ej
          rw [R.len, if_pos hjl] at hb
          cases hb
          refine hB.congr ?_
          intro x m
          unfold Cand
          constructor
          · rintro (⟨h1, h2, h3, h4⟩ | ⟨rfl, hmm⟩)
            · exact ⟨List.mem_append_left _ h1, h2, h3, h4⟩
            · exact ⟨by simp, rfl, hgt, _, hm1, hmm⟩
          · rintro ⟨h1, h2, h3, ms, h4, h5⟩
            rcases List.mem_append.mp h1 with h1 | h1
            · exact Or.inl ⟨h1, h2, h3, ms, h4, h5⟩
            · rw [List.mem_singleton] at h1
              subst h1
              rw [hm1] at h4
              cases h4
              exact Or.inr ⟨rfl, h5⟩
        · rename_i ej
          refine (R.ben j b hb).congr ?_
          intro x m
          unfold Cand
          constructor
          · rintro ⟨h1, h2, h3, h4⟩
            exact ⟨List.mem_append_left _ h1, h2, h3, h4⟩
          · rintro ⟨h1, h2, h3, h4⟩
            rcases List.mem_append.mp h1 with h1 | h1
            · exact ⟨h1, h2, h3, h4⟩
            · rw [List.mem_singleton] at h1
              subst h1
              exact absurd h2 ej
    · refine ⟨(st.1.set i (V i), st.2), ?_, hfit, R.len, ?_⟩
      · unfold recvStep
        simp only [hc0, if_false, hbase, Option.bind_eq_bind, Option.bind_some, hgt]
        rfl
      · intro j b hb
        refine (R.ben j b hb).congr ?_
        intro x m
        unfold Cand
        constructor
        · rintro ⟨h1, h2, h3, h4⟩
          exact ⟨List.mem_append_left _ h1, h2, h3, h4⟩
        · rintro ⟨h1, h2, h3, h4⟩
          rcases List.mem_append.mp h1 with h1 | h1
          · exact ⟨h1, h2, h3, h4⟩
          · rw [List.mem_singleton] at h1
            subst h1
            rw [← h2] at h3
            exact absurd h3 hgt

/-- Without mutations the collector only stores the results. -/
theorem recv_empty {V : Nat → ℚ} {muts : List (List Mut)} {cutoff : Nat} {fit0 : List ℚ} (hc : 1 ≤ cutoff) (hcl : cutoff ≤ fit0.length)
    (hm : ∀ i < fit0.length, muts[i]? = some []) (ar : List Nat) :
    (∀ i ∈ ar, i < fit0.length) → (ar.map fun i => (i, V i)).foldlM (recvStep cutoff muts) (fit0, List.replicate cutoff []) =
      some (collect fit0 (ar.map fun i => (i, V i)), List.replicate cutoff []) := by
  induction ar using List.reverseRecOn with
  | nil => intro _; rfl
  | append_singleton ar i ih =>
    intro har
    have hi : i < fit0.length := har i (by simp)
    have hjl : i % cutoff < cutoff := Nat.mod_lt _ hc
    have hc0 : ¬ cutoff = 0 := by omega
    have hcol : (collect fit0 (ar.map fun i => (i, V i))).set i (V i) = collect fit0 ((ar ++ [i]).map fun i => (i, V i)) := by
      rw [List.map_append]
      unfold collect
      rw [List.foldl_append]
      rfl
    rw [← hcol, List.map_append, List.foldlM_append, ih fun x hx => har x (List.mem_append_left _ hx)]
    simp only [List.map_cons, List.map_nil, List.foldlM_cons, List.foldlM_nil, Option.bind_eq_bind, Option.bind_some]
    have hlen : i % cutoff < ((collect fit0 (ar.map fun i => (i, V i))).set i (V i)).length := by
      rw [List.length_set, collect_len]
      omega
    have hr : (List.replicate cutoff ([] : Ben))[i % cutoff]? = some [] := by rw [List.getElem?_replicate, if_pos hjl]
    have hset : (List.replicate cutoff ([] : Ben)).set (i % cutoff) [] = List.replicate cutoff [] := by
      apply List.ext_getElem?
      intro t
      rw [List.getElem?_set]
      split
      · rename_i e
        subst e
        rw [List.length_replicate, if_pos hjl, hr]
      · rfl
    unfold recvStep setBeneficial
    simp only [hc0, if_false, List.getElem?_eq_getElem hlen, Option.bind_eq_bind, Option.bind_some, hm i hi, hr, List.foldlM_nil, Option.pure_def, hset]
    split <;> rfl

end Verif.Alg

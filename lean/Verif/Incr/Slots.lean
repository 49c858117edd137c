import Verif.Incr.Lists
import Mathlib.Data.List.Induction

/-!
# Slots, free list and grid: refinement to a list of live triangles
-/

namespace Verif.Incr

/-- The triangles currently in use. -/
def live (d : D) : List Tri := d.tris.filter (fun t => !t.freed)

/-- Invariant of slots, free list and grid. -/
structure SInv (g : Geo) (d : D) : Prop where
  free_nodup : d.free.Nodup
  free_iff : ∀ i, i ∈ d.free ↔ ∃ t, d.tris[i]? = some t ∧ t.freed = true
  cell_nodup : ∀ x y, (d.cells x y).Nodup
  cell_iff : ∀ x y i, i ∈ d.cells x y ↔
    ∃ t, d.tris[i]? = some t ∧ t.freed = false ∧ g.cover t.a t.b t.c x y = true

theorem mem_live {d : D} {t : Tri} : t ∈ live d ↔ t.freed = false ∧ ∃ i : Nat, d.tris[i]? = some t := by
  unfold live
  rw [List.mem_filter, List.mem_iff_getElem?]
  simp [and_comm]

theorem split_at {α} {l : List α} {i : Nat} {t : α} (h : l[i]? = some t) :
    ∃ l1 l2, l = l1 ++ t :: l2 ∧ l1.length = i := by
  obtain ⟨hi, he⟩ := List.getElem?_eq_some_iff.mp h
  refine ⟨l.take i, l.drop (i + 1), ?_, by simp; omega⟩
  rw [← he, List.cons_getElem_drop_succ, List.take_append_drop]

theorem set_split {α} (l1 : List α) (t u : α) (l2 : List α) :
    (l1 ++ t :: l2).set l1.length u = l1 ++ u :: l2 := by
  rw [List.set_append_right _ _ (le_refl _)]; simp

/-- Slots are live or free. -/
theorem slots_len {g : Geo} {d : D} (S : SInv g d) :
    d.tris.length = (live d).length + d.free.length := by
  have h1 : d.free.length = d.tris.countP (fun t => t.freed) := by
    have hp : d.free.Perm ((List.range d.tris.length).filter
        (fun i => match d.tris[i]? with | some t => t.freed | none => false)) := by
      refine (List.perm_ext_iff_of_nodup S.free_nodup (List.nodup_range.filter _)).mpr ?_
      intro i
      rw [S.free_iff, List.mem_filter, List.mem_range]
      constructor
      · rintro ⟨t, ht, hf⟩
        refine ⟨(List.getElem?_eq_some_iff.mp ht).1, ?_⟩
        simp [ht, hf]
      · rintro ⟨hi, hf⟩
        refine ⟨d.tris[i], List.getElem?_eq_getElem hi, ?_⟩
        simpa [List.getElem?_eq_getElem hi] using hf
    rw [hp.length_eq, ← List.countP_eq_length_filter]
    clear hp S
    generalize d.tris = L
    induction L using List.reverseRecOn with
    | nil => rfl
    | append_singleton L t ih =>
      rw [List.length_append, List.length_singleton, List.range_succ, List.countP_append,
        List.countP_append]
      congr 1
      · rw [← ih]
        apply List.countP_congr
        intro i hi
        rw [List.mem_range] at hi
        rw [List.getElem?_append_left hi]
      · simp [List.countP_cons]
  unfold live
  rw [h1, ← List.countP_eq_length_filter]
  have := List.length_eq_countP_add_countP (fun t : Tri => t.freed) (l := d.tris)
  rw [this, add_comm]
  congr 1
  apply List.countP_congr
  intro t _
  simp

theorem addTriangle_spec {g : Geo} {d : D} (S : SInv g d) {t : Tri} (ht : t.freed = false)
    (hl : (live d).length < 65536) :
    ∃ d', addTriangle g d t = some d' ∧ SInv g d' ∧ (live d').Perm (t :: live d) ∧
      d'.tris.length = max d.tris.length (live d').length ∧
      d'.pm = d.pm ∧ d'.sup = d.sup ∧ d'.numPoints = d.numPoints ∧ d'.unique = d.unique := by
  unfold addTriangle
  have hlen := slots_len S
  cases hf : d.free with
  | nil =>
    have hlt : d.tris.length < 65536 := by rw [hlen, hf]; simpa using hl
    have hmod : d.tris.length % 65536 = d.tris.length := Nat.mod_eq_of_lt hlt
    have hlive : live { d with tris := d.tris ++ [t], free := [], cells := gridAdd g d.cells t d.tris.length } = live d ++ [t] := by
      unfold live; simp [ht]
    rw [hmod]
    refine ⟨_, rfl, ⟨?_, ?_, ?_, ?_⟩, ?_, ?_, rfl, rfl, rfl, rfl⟩
    · simp
    · intro i
      simp only
      rw [← hf, S.free_iff]
      constructor
      · rintro ⟨u, hu, hfr⟩
        refine ⟨u, ?_, hfr⟩
        rw [List.getElem?_append_left (List.getElem?_eq_some_iff.mp hu).1]; exact hu
      · rintro ⟨u, hu, hfr⟩
        refine ⟨u, ?_, hfr⟩
        rcases lt_or_ge i d.tris.length with h | h
        · rwa [List.getElem?_append_left h] at hu
        · rw [List.getElem?_append_right h] at hu
          rcases Nat.eq_zero_or_pos (i - d.tris.length) with h0 | h0
          · rw [h0] at hu; simp at hu; subst hu; rw [ht] at hfr; cases hfr
          · rw [List.getElem?_eq_none (by simp; omega)] at hu; cases hu
    · intro x y
      simp only [gridAdd]
      split
      · refine List.nodup_append.mpr ⟨S.cell_nodup x y, by simp, ?_⟩
        intro a ha b hb hab
        simp only [List.mem_cons, List.not_mem_nil, or_false] at hb
        subst hab; subst hb
        obtain ⟨u, hu, _⟩ := (S.cell_iff x y _).mp ha
        exact absurd (List.getElem?_eq_some_iff.mp hu).1 (lt_irrefl _)
      · exact S.cell_nodup x y
    · intro x y i
      have key : ∀ i u, (d.tris ++ [t])[i]? = some u ↔ d.tris[i]? = some u ∨ (i = d.tris.length ∧ u = t) := by
        intro i u
        rcases lt_or_ge i d.tris.length with h | h
        · rw [List.getElem?_append_left h]
          constructor
          · exact Or.inl
          · rintro (h' | h')
            · exact h'
            · omega
        · rw [List.getElem?_append_right h, List.getElem?_eq_none h]
          rcases Nat.eq_zero_or_pos (i - d.tris.length) with h0 | h0
          · rw [h0]; simp; constructor
            · rintro rfl; exact ⟨by omega, rfl⟩
            · rintro ⟨_, rfl⟩; rfl
          · rw [List.getElem?_eq_none (by simp; omega)]
            simp; omega
      simp only [gridAdd]
      constructor
      · intro hi
        split at hi
        · rename_i hc
          rcases List.mem_append.mp hi with hi | hi
          · obtain ⟨u, hu, h1, h2⟩ := (S.cell_iff x y i).mp hi
            exact ⟨u, (key i u).mpr (Or.inl hu), h1, h2⟩
          · simp at hi
            exact ⟨t, (key i t).mpr (Or.inr ⟨hi, rfl⟩), ht, hc⟩
        · obtain ⟨u, hu, h1, h2⟩ := (S.cell_iff x y i).mp hi
          exact ⟨u, (key i u).mpr (Or.inl hu), h1, h2⟩
      · rintro ⟨u, hu, h1, h2⟩
        rcases (key i u).mp hu with hu | ⟨rfl, rfl⟩
        · have := (S.cell_iff x y i).mpr ⟨u, hu, h1, h2⟩
          split
          · exact List.mem_append_left _ this
          · exact this
        · rw [if_pos h2]; simp
    · rw [hlive]; exact List.perm_append_comm (l₁ := live d) (l₂ := [t])
    · rw [hlive]; simp [hlen, hf]
  | cons i fr =>
    obtain ⟨o, ho, hof⟩ := (S.free_iff i).mp (by rw [hf]; simp)
    obtain ⟨l1, l2, hsp, hi⟩ := split_at ho
    have hlt : i < d.tris.length := (List.getElem?_eq_some_iff.mp ho).1
    simp only [hlt, if_true]
    have hfn := S.free_nodup
    rw [hf, List.nodup_cons] at hfn
    have hset : d.tris.set i t = l1 ++ t :: l2 := by rw [hsp, ← hi, set_split]
    have key : ∀ j u, (d.tris.set i t)[j]? = some u ↔ (j ≠ i ∧ d.tris[j]? = some u) ∨ (j = i ∧ u = t) := by
      intro j u
      rw [List.getElem?_set]
      by_cases hj : i = j
      · subst hj; simp [hlt]; exact eq_comm
      · simp [hj, Ne.symm hj]
    have hlive : (live { d with tris := d.tris.set i t, cells := gridAdd g d.cells t i, free := fr }).Perm (t :: live d) := by
      unfold live
      simp only
      rw [hset, hsp]
      simp only [List.filter_append, List.filter_cons, ht, hof, Bool.not_false, Bool.not_true, if_true]
      exact List.perm_middle
    refine ⟨_, rfl, ⟨hfn.2, ?_, ?_, ?_⟩, hlive, ?_, rfl, rfl, rfl, rfl⟩
    · intro j
      simp only
      constructor
      · intro hj
        obtain ⟨u, hu, hfr⟩ := (S.free_iff j).mp (by rw [hf]; simp [hj])
        exact ⟨u, (key j u).mpr (Or.inl ⟨fun h => hfn.1 (h ▸ hj), hu⟩), hfr⟩
      · rintro ⟨u, hu, hfr⟩
        rcases (key j u).mp hu with ⟨hj, hu⟩ | ⟨rfl, rfl⟩
        · have := (S.free_iff j).mpr ⟨u, hu, hfr⟩
          rw [hf] at this
          rcases List.mem_cons.mp this with h | h
          · exact (hj h).elim
          · exact h
        · rw [ht] at hfr; cases hfr
    · intro x y
      simp only [gridAdd]
      split
      · refine List.nodup_append.mpr ⟨S.cell_nodup x y, by simp, ?_⟩
        intro a ha b hb hab
        simp only [List.mem_cons, List.not_mem_nil, or_false] at hb
        subst hab; subst hb
        obtain ⟨u, hu, h1, _⟩ := (S.cell_iff x y _).mp ha
        rw [ho] at hu; cases hu; rw [hof] at h1; cases h1
      · exact S.cell_nodup x y
    · intro x y j
      simp only [gridAdd]
      have old : ∀ u, d.tris[j]? = some u → u.freed = false → j ≠ i := by
        rintro u hu h1 rfl
        rw [ho] at hu; cases hu; rw [hof] at h1; cases h1
      constructor
      · intro hj
        split at hj
        · rename_i hc
          rcases List.mem_append.mp hj with hj | hj
          · obtain ⟨u, hu, h1, h2⟩ := (S.cell_iff x y j).mp hj
            exact ⟨u, (key j u).mpr (Or.inl ⟨old u hu h1, hu⟩), h1, h2⟩
          · simp at hj
            exact ⟨t, (key j t).mpr (Or.inr ⟨hj, rfl⟩), ht, hc⟩
        · obtain ⟨u, hu, h1, h2⟩ := (S.cell_iff x y j).mp hj
          exact ⟨u, (key j u).mpr (Or.inl ⟨old u hu h1, hu⟩), h1, h2⟩
      · rintro ⟨u, hu, h1, h2⟩
        rcases (key j u).mp hu with ⟨_, hu⟩ | ⟨rfl, rfl⟩
        · have := (S.cell_iff x y j).mpr ⟨u, hu, h1, h2⟩
          split
          · exact List.mem_append_left _ this
          · exact this
        · rw [if_pos h2]; simp
    · simp only [List.length_set]
      have := hlive.length_eq
      rw [this, hlen, hf]
      simp

/-- One removal of a live triangle (`markFreeTriangle` and `RemoveTriangle`). -/
theorem removeOne_spec {g : Geo} {d : D} (S : SInv g d) {k : Nat} {t : Tri}
    (hk : d.tris[k]? = some t) (ht : t.freed = false) :
    let d1 := markFree d k
    let d2 := { d1 with cells := gridRemove g d1.cells t k }
    SInv g d2 ∧ (live d).Perm (t :: live d2) ∧ d2.tris.length = d.tris.length ∧
      d2.pm = d.pm ∧ d2.sup = d.sup ∧ d2.numPoints = d.numPoints ∧ d2.unique = d.unique ∧
      (∀ j, j ≠ k → d2.tris[j]? = d.tris[j]?) ∧
      (∀ x y, d2.cells x y = gridRemove g d.cells t k x y) := by
  intro d1 d2
  have hd1 : d1 = { d with tris := d.tris.set k { t with a := ⟨-1, t.a.y⟩ }, free := k :: d.free } := by
    simp only [d1, markFree, hk]
  have hlt : k < d.tris.length := (List.getElem?_eq_some_iff.mp hk).1
  obtain ⟨l1, l2, hsp, hi⟩ := split_at hk
  set t' : Tri := { t with a := ⟨-1, t.a.y⟩ } with ht'
  have htf : t'.freed = true := by simp [ht', Tri.freed]
  have key : ∀ j u, (d.tris.set k t')[j]? = some u ↔ (j ≠ k ∧ d.tris[j]? = some u) ∨ (j = k ∧ u = t') := by
    intro j u
    rw [List.getElem?_set]
    by_cases hj : k = j
    · subst hj; simp [hlt]; exact eq_comm
    · simp [hj, Ne.symm hj]
  have e1 : d2.tris = d.tris.set k t' := by simp only [d2, hd1]
  have e2 : d2.free = k :: d.free := by simp only [d2, hd1]
  have e3 : ∀ x y, d2.cells x y = gridRemove g d.cells t k x y := by intro x y; simp only [d2, hd1]
  have cellmem : ∀ x y j, j ∈ gridRemove g d.cells t k x y ↔ j ≠ k ∧ j ∈ d.cells x y := by
    intro x y j
    unfold gridRemove
    have hn := S.cell_nodup x y
    by_cases hc : g.cover t.a t.b t.c x y = true
    · have hm : k ∈ d.cells x y := (S.cell_iff x y k).mpr ⟨t, hk, ht, hc⟩
      rw [if_pos hc, if_pos hm, (swapRemove_idxOf hm).mem_iff, hn.mem_erase_iff]
    · rw [if_neg hc]
      constructor
      · intro hj
        refine ⟨?_, hj⟩
        rintro rfl
        obtain ⟨u, hu, _, h2⟩ := (S.cell_iff x y j).mp hj
        rw [hk] at hu; cases hu; exact hc h2
      · exact fun h => h.2
  refine ⟨⟨?_, ?_, ?_, ?_⟩, ?_, ?_, ?_, ?_, ?_, ?_, ?_, e3⟩
  · rw [e2, List.nodup_cons]
    refine ⟨?_, S.free_nodup⟩
    intro hm
    obtain ⟨u, hu, h1⟩ := (S.free_iff k).mp hm
    rw [hk] at hu; cases hu; rw [ht] at h1; cases h1
  · intro j
    rw [e2, e1]
    constructor
    · intro hj
      rcases List.mem_cons.mp hj with rfl | hj
      · exact ⟨t', (key j t').mpr (Or.inr ⟨rfl, rfl⟩), htf⟩
      · obtain ⟨u, hu, h1⟩ := (S.free_iff j).mp hj
        refine ⟨u, (key j u).mpr (Or.inl ⟨?_, hu⟩), h1⟩
        rintro rfl
        rw [hk] at hu; cases hu; rw [ht] at h1; cases h1
    · rintro ⟨u, hu, h1⟩
      rcases (key j u).mp hu with ⟨_, hu⟩ | ⟨rfl, _⟩
      · exact List.mem_cons_of_mem _ ((S.free_iff j).mpr ⟨u, hu, h1⟩)
      · simp
  · intro x y
    rw [e3]
    unfold gridRemove
    split
    · split
      · rename_i hm
        exact (swapRemove_idxOf hm).nodup_iff.mpr ((S.cell_nodup x y).erase k)
      · exact S.cell_nodup x y
    · exact S.cell_nodup x y
  · intro x y j
    rw [e3, cellmem, e1, S.cell_iff]
    constructor
    · rintro ⟨hj, u, hu, h1, h2⟩
      exact ⟨u, (key j u).mpr (Or.inl ⟨hj, hu⟩), h1, h2⟩
    · rintro ⟨u, hu, h1, h2⟩
      rcases (key j u).mp hu with ⟨hj, hu⟩ | ⟨rfl, rfl⟩
      · exact ⟨hj, u, hu, h1, h2⟩
      · rw [htf] at h1; cases h1
  · unfold live
    rw [e1, hsp, ← hi, set_split]
    simp only [List.filter_append, List.filter_cons, ht, htf, Bool.not_false, Bool.not_true, if_true]
    exact List.perm_middle
  · rw [e1]; simp
  · simp only [d2, hd1]
  · simp only [d2, hd1]
  · simp only [d2, hd1]
  · simp only [d2, hd1]
  · intro j hj
    rw [e1, List.getElem?_set]
    simp [Ne.symm hj]

/-- The removal loops: all matching triangles of the box are removed, each once. -/
theorem removeLoop_spec {g : Geo} (check : Bool) (q : Tri → Bool) (x y : Nat) :
    ∀ (n : Nat) (pre rest : List Nat) (d : D) (acc : List Tri), SInv g d →
      d.cells x y = pre ++ rest → rest.length = n →
      (∀ k ∈ pre, ∀ t, d.tris[k]? = some t → q t = false) →
      ∃ d' acc', removeLoop g check q x y n pre.length d acc = some (d', acc ++ acc') ∧ SInv g d' ∧
        (live d).Perm (acc' ++ live d') ∧ (∀ t ∈ acc', q t = true) ∧
        (∀ t ∈ live d', g.cover t.a t.b t.c x y = true → q t = false) ∧
        d'.tris.length = d.tris.length ∧ d'.pm = d.pm ∧ d'.sup = d.sup ∧
        d'.numPoints = d.numPoints ∧ d'.unique = d.unique := by
  intro n
  induction n with
  | zero =>
    intro pre rest d acc S hc hr hpre
    refine ⟨d, [], by simp [removeLoop], S, by simp, by simp, ?_, rfl, rfl, rfl, rfl, rfl⟩
    intro t ht hcov
    obtain ⟨hf, i, hi⟩ := mem_live.mp ht
    have : i ∈ d.cells x y := (S.cell_iff x y i).mpr ⟨t, hi, hf, hcov⟩
    rw [hc, List.length_eq_zero_iff.mp hr, List.append_nil] at this
    exact hpre i this t hi
  | succ n ih =>
    intro pre rest d acc S hc hr hpre
    obtain ⟨k, rest, rfl⟩ : ∃ k r, rest = k :: r := by
      cases rest with
      | nil => simp at hr
      | cons k r => exact ⟨k, r, rfl⟩
    have hk : (d.cells x y)[pre.length]? = some k := by rw [hc]; simp
    obtain ⟨t, ht, hf, hcov⟩ := (S.cell_iff x y k).mp (by rw [hc]; simp)
    have hchk : (check && t.freed) = false := by rw [hf]; simp
    have hn := S.cell_nodup x y
    rw [removeLoop]
    simp only [hk, ht, hchk, Bool.false_eq_true, if_false]
    by_cases hq : q t = true
    · rw [if_pos hq]
      obtain ⟨S2, hlive, hlen, h1, h2, h3, h4, h5, h6⟩ := removeOne_spec S ht hf
      set d2 : D := { markFree d k with cells := gridRemove g (markFree d k).cells t k } with hd2
      have hkpre : k ∉ pre := by
        rw [hc] at hn
        exact fun h => (List.nodup_append.mp hn).2.2 k h k (by simp) rfl
      have hidx : (d.cells x y).idxOf k = pre.length := by
        rw [hc, List.idxOf_append_of_notMem hkpre]; simp
      obtain ⟨m, hm1, hm2⟩ := swapRemove_eq pre k rest
      have hcell : d2.cells x y = pre ++ m := by
        rw [h6]
        unfold gridRemove
        rw [if_pos hcov, if_pos (by rw [hc]; simp), hidx, hc, hm1]
      obtain ⟨d', acc', e, S', hl', hqs, hcl, r1, r2, r3, r4, r5⟩ := ih pre m d2 (acc ++ [t]) S2 hcell
        (by rw [hm2.length_eq]; simpa using hr) (by
          intro j hj u hu
          have hjk : j ≠ k := by rintro rfl; exact hkpre hj
          rw [h5 j hjk] at hu
          exact hpre j hj u hu)
      refine ⟨d', t :: acc', by rw [e]; simp, S', ?_, ?_, hcl, by rw [r1, hlen], by rw [r2, h1],
        by rw [r3, h2], by rw [r4, h3], by rw [r5, h4]⟩
      · exact hlive.trans (by simpa using hl'.cons t)
      · intro u hu
        rcases List.mem_cons.mp hu with rfl | hu
        · exact hq
        · exact hqs u hu
    · rw [if_neg hq]
      have := ih (pre ++ [k]) rest d acc S (by rw [hc]; simp) (by simpa using hr) (by
        intro j hj u hu
        rcases List.mem_append.mp hj with hj | hj
        · exact hpre j hj u hu
        · simp at hj; subst hj
          rw [ht] at hu; cases hu
          simpa using hq)
      simpa using this

end Verif.Incr

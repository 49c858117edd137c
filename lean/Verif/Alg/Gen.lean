import Verif.Alg.Algo

/-!
# `newGeneration`, swaps and collection of fitnesses
-/

namespace Verif.Alg

open Verif.Fit

variable {Dt K : Type}

theorem get_set {α : Type} {l : List α} {i : Nat} (hi : i < l.length) (v : α) (x : Nat) :
    (l.set i v)[x]? = if x = i then some v else l[x]? := by
  rw [List.getElem?_set]
  by_cases h : x = i
  · subst h; simp [hi]
  · rw [if_neg (fun e => h e.symm), if_neg h]

/-- All groups have `L` points. -/
def AllLen (L : Nat) (pop : List (List NP)) : Prop := ∀ (x : Nat) (p : List NP), pop[x]? = some p → p.length = L

theorem elite_spec {pop : List (List NP)} {L : Nat} (hp : AllLen L pop) : ∀ (c : Nat) (st : List (List NP) × List (List Mut)), c ≤ pop.length →
    st.1.length = pop.length → st.2.length = pop.length → AllLen L st.1 →
    ∃ st', (List.range c).foldlM (eliteStep pop) st = some st' ∧ st'.1.length = pop.length ∧ st'.2.length = pop.length ∧
      ∀ x, st'.1[x]? = (if x < c then pop[x]? else st.1[x]?) ∧ st'.2[x]? = (if x < c then some [] else st.2[x]?) := by
  intro c
  induction c with
  | zero => intro st _ h1 h2 _; exact ⟨st, by simp, h1, h2, by simp⟩
  | succ c ih =>
    intro st hc h1 h2 h3
    obtain ⟨st', a, b, d, e⟩ := ih st (by omega) h1 h2 h3
    have hc' : c < pop.length := by omega
    have g1 : pop[c]? = some pop[c] := List.getElem?_eq_getElem hc'
    have g2 : st'.1[c]? = some (st.1[c]'(by omega)) := by rw [(e c).1, if_neg (by omega)]; exact List.getElem?_eq_getElem (by omega)
    have g3 : st'.2[c]? = some (st.2[c]'(by omega)) := by rw [(e c).2, if_neg (by omega)]; exact List.getElem?_eq_getElem (by omega)
    have hl : (st.1[c]'(by omega)).length = pop[c].length := by
      rw [h3 c _ (List.getElem?_eq_getElem (by omega)), hp c _ g1]
    refine ⟨(st'.1.set c pop[c], st'.2.set c []), ?_, by simp [b], by simp [d], ?_⟩
    · rw [List.range_succ, List.foldlM_append, a]
      simp only [Option.bind_eq_bind, Option.bind_some, List.foldlM_cons, List.foldlM_nil]
      unfold eliteStep
      rw [g1, g2, g3]
      simp only [Option.bind_eq_bind, Option.bind_some, setPts, hl, if_true]
      rfl
    · intro x
      simp only
      rw [get_set (by omega), get_set (by omega)]
      by_cases hx : x = c
      · subst hx; rw [if_pos rfl, if_pos rfl, if_pos (by omega), if_pos (by omega)]; exact ⟨g1.symm, rfl⟩
      · rw [if_neg hx, if_neg hx, (e x).1, (e x).2]
        by_cases hx' : x < c
        · rw [if_pos hx', if_pos hx', if_pos (by omega), if_pos (by omega)]; exact ⟨rfl, rfl⟩
        · rw [if_neg hx', if_neg hx', if_neg (by omega), if_neg (by omega)]; exact ⟨rfl, rfl⟩

theorem idAt_slots {s s' : Sys Dt K} (h : s'.slots = s.slots) (i : Nat) : idAt s' i = idAt s i := by unfold idAt; rw [h]

/-- `SetBase` between two members when the base has a triangulation. -/
theorem setBase_spec {s : Sys Dt K} {i j : Nat} (hi : i < s.slots.length) (hj : j < s.slots.length) (ht : (s.fns (idAt s j)).tri ≠ none) :
    setBase s i j = some (setFn s (idAt s i) { s.fns (idAt s i) with base := some (idAt s j) }) := by
  unfold setBase
  rw [slots_idAt hi, slots_idAt hj]
  simp only [Option.bind_eq_bind, Option.bind_some]
  obtain ⟨d, hd⟩ := Option.ne_none_iff_exists'.mp ht
  rw [hd]
  rfl

/-- What the loop over the mutated members `i ≤ x < i + m` leaves. -/
structure MutDone (μ : Mutator) (pop : List (List NP)) (cutoff i m : Nat) (st st' : List (List NP) × List (List Mut) × Sys Dt K) : Prop where
  len1 : st'.1.length = st.1.length
  len2 : st'.2.1.length = st.2.1.length
  popEq : ∀ x : Nat, st'.1[x]? = if i ≤ x ∧ x < i + m then pop[x % cutoff]?.map (fun p => (μ x p).1) else st.1[x]?
  mutsEq : ∀ x : Nat, st'.2.1[x]? = if i ≤ x ∧ x < i + m then pop[x % cutoff]?.map (fun p => (μ x p).2) else st.2.1[x]?
  slots : st'.2.2.slots = st.2.2.slots
  bufs : st'.2.2.bufs = st.2.2.bufs
  cur : st'.2.2.cur = st.2.2.cur
  k : st'.2.2.k = st.2.2.k
  fns : ∀ x, i ≤ x → x < i + m → st'.2.2.fns (idAt st.2.2 x) = { st.2.2.fns (idAt st.2.2 x) with base := some (idAt st.2.2 (x % cutoff)) }
  other : ∀ id, (∀ x, i ≤ x → x < i + m → id ≠ idAt st.2.2 x) → st'.2.2.fns id = st.2.2.fns id

theorem mutLoop_spec {μ : Mutator} {pop : List (List NP)} {cutoff L : Nat} (hc : 1 ≤ cutoff) (hcp : cutoff ≤ pop.length) (hp : AllLen L pop) :
    ∀ (m i j : Nat) (st : List (List NP) × List (List Mut) × Sys Dt K), (if j < cutoff then j else 0) = i % cutoff → cutoff ≤ i → i + m ≤ pop.length →
      st.1.length = pop.length → st.2.1.length = pop.length → (∀ x, i ≤ x → ∀ p, st.1[x]? = some p → p.length = L) →
      st.2.2.slots.length = pop.length → st.2.2.slots.Nodup → (∀ x < cutoff, (st.2.2.fns (idAt st.2.2 x)).tri ≠ none) →
      ∃ st', mutLoop μ pop cutoff m i j st = some st' ∧ MutDone μ pop cutoff i m st st' := by
  intro m
  induction m with
  | zero =>
    intro i j st _ _ _ _ _ _ _ _ _
    exact ⟨st, rfl, rfl, rfl, fun x => by rw [if_neg (by omega)], fun x => by rw [if_neg (by omega)], rfl, rfl, rfl, rfl, fun x h1 h2 => by omega, fun _ _ => rfl⟩
  | succ m ih =>
    intro i j st hj hi him h1 h2 h3 h4 h5 h6
    have hjlt : i % cutoff < cutoff := Nat.mod_lt _ hc
    have g1 : pop[i % cutoff]? = some (pop[i % cutoff]'(by omega)) := List.getElem?_eq_getElem (by omega)
    have g2 : st.1[i]? = some (st.1[i]'(by omega)) := List.getElem?_eq_getElem (by omega)
    have g3 : st.2.1[i]? = some (st.2.1[i]'(by omega)) := List.getElem?_eq_getElem (by omega)
    have hl : (st.1[i]'(by omega)).length = (pop[i % cutoff]'(by omega)).length := by
      rw [h3 i le_rfl _ g2, hp _ _ g1]
    have gs := setBase_spec (s := st.2.2) (i := i) (j := i % cutoff) (by omega) (by omega) (h6 _ hjlt)
    have hidne : ∀ x, x < pop.length → x ≠ i → idAt st.2.2 x ≠ idAt st.2.2 i := fun x hx hne e => hne (idAt_inj h5 (by omega) (by omega) e)
    have hstep : mutStep μ pop st i (if j < cutoff then j else 0) =
        some (st.1.set i (μ i (pop[i % cutoff]'(by omega))).1, st.2.1.set i (μ i (pop[i % cutoff]'(by omega))).2,
          setFn st.2.2 (idAt st.2.2 i) { st.2.2.fns (idAt st.2.2 i) with base := some (idAt st.2.2 (i % cutoff)) }) := by
      unfold mutStep
      rw [hj, g1, g2, g3]
      simp only [Option.bind_eq_bind, Option.bind_some, setPts, hl, if_true]
      rw [gs]
      rfl
    obtain ⟨st', hst', D⟩ := ih (i + 1) ((if j < cutoff then j else 0) + 1)
      (st.1.set i (μ i (pop[i % cutoff]'(by omega))).1, st.2.1.set i (μ i (pop[i % cutoff]'(by omega))).2,
          setFn st.2.2 (idAt st.2.2 i) { st.2.2.fns (idAt st.2.2 i) with base := some (idAt st.2.2 (i % cutoff)) })
      (by
        rw [hj, Nat.add_mod i 1 cutoff]
        by_cases he : i % cutoff + 1 < cutoff
        · rw [if_pos he]
          have : 1 % cutoff = 1 := Nat.mod_eq_of_lt (by omega)
          rw [this, Nat.mod_eq_of_lt he]
        · rw [if_neg he]
          have he' : i % cutoff + 1 = cutoff := by omega
          by_cases hc1 : cutoff = 1
          · subst hc1; omega
          · have : 1 % cutoff = 1 := Nat.mod_eq_of_lt (by omega)
            rw [this, he', Nat.mod_self])
      (by omega) (by omega) (by simp [h1]) (by simp [h2])
      (by
        intro x hx p hxp
        simp only at hxp
        rw [get_set (by omega), if_neg (by omega)] at hxp
        exact h3 x (by omega) p hxp)
      h4 h5
      (by
        intro x hx
        have : idAt (setFn st.2.2 (idAt st.2.2 i) { st.2.2.fns (idAt st.2.2 i) with base := some (idAt st.2.2 (i % cutoff)) }) x = idAt st.2.2 x := rfl
        simp only [this]
        have hne := hidne x (by omega) (by omega)
        simp only [setFn, hne, if_false]
        exact h6 x hx)
    refine ⟨st', ?_, ?_⟩
    · unfold mutLoop
      rw [if_neg (by omega), hstep]
      exact hst'
    · have hslots : ∀ x, idAt (setFn st.2.2 (idAt st.2.2 i) { st.2.2.fns (idAt st.2.2 i) with base := some (idAt st.2.2 (i % cutoff)) }) x = idAt st.2.2 x := fun _ => rfl
      refine ⟨by rw [D.len1]; simp, by rw [D.len2]; simp, ?_, ?_, D.slots, D.bufs, D.cur, D.k, ?_, ?_⟩
      · intro x
        rw [D.popEq x]
        simp only
        rw [get_set (by omega)]
        by_cases hx : x = i
        · subst hx
          rw [if_neg (by omega), if_pos rfl, if_pos (by omega), g1]
          rfl
        · rw [if_neg hx]
          by_cases hx' : i + 1 ≤ x ∧ x < i + 1 + m
          · rw [if_pos hx', if_pos (by omega)]
          · rw [if_neg hx', if_neg (by omega)]
      · intro x
        rw [D.mutsEq x]
        simp only
        rw [get_set (by omega)]
        by_cases hx : x = i
        · subst hx
          rw [if_neg (by omega), if_pos rfl, if_pos (by omega), g1]
          rfl
        · rw [if_neg hx]
          by_cases hx' : i + 1 ≤ x ∧ x < i + 1 + m
          · rw [if_pos hx', if_pos (by omega)]
          · rw [if_neg hx', if_neg (by omega)]
      · intro x hx1 hx2
        by_cases hx : x = i
        · subst hx
          have := D.other (idAt st.2.2 x) (by
            intro y hy1 hy2
            simp only [hslots]
            exact fun e => hidne y (by omega) (by omega) e.symm)
          rw [this]
          simp [setFn]
        · have := D.fns x (by omega) (by omega)
          simp only [hslots] at this
          rw [this]
          have hne := hidne x (by omega) hx
          simp [setFn, hne]
      · intro id hid
        have := D.other id (by
          intro y hy1 hy2
          simp only [hslots]
          exact hid y (by omega) (by omega))
        rw [this]
        have hne := hid i le_rfl (by omega)
        simp [setFn, hne]

/-- What `newGeneration` leaves. -/
structure GenDone (μ : Mutator) (cutoff lim : Nat) (a b : Algo Dt K) : Prop where
  len : b.pop.length = a.pop.length
  lenM : b.muts.length = a.pop.length
  newPop : b.newPop = a.pop
  fit : b.fit = a.fit
  best : b.best = a.best
  bestFit : b.bestFit = a.bestFit
  gen : b.gen = a.gen
  slots : b.sys.slots = a.sys.slots
  bufs : b.sys.bufs = a.sys.bufs
  cur : b.sys.cur = a.sys.cur
  k : b.sys.k = a.sys.k
  elite : ∀ x : Nat, x < cutoff → b.pop[x]? = a.pop[x]? ∧ b.muts[x]? = some [] ∧ b.sys.fns (idAt a.sys x) = a.sys.fns (idAt a.sys x)
  mutd : ∀ x : Nat, cutoff ≤ x → x < lim → b.pop[x]? = a.pop[x % cutoff]?.map (fun p => (μ x p).1) ∧
    b.muts[x]? = a.pop[x % cutoff]?.map (fun p => (μ x p).2) ∧
    b.sys.fns (idAt a.sys x) = { a.sys.fns (idAt a.sys x) with base := some (idAt a.sys (x % cutoff)) }
  rest : ∀ x : Nat, cutoff ≤ x → lim ≤ x → b.pop[x]? = a.newPop[x]? ∧ b.muts[x]? = a.muts[x]?
  other : ∀ id, (∀ x, cutoff ≤ x → x < lim → id ≠ idAt a.sys x) → b.sys.fns id = a.sys.fns id

theorem newGeneration_spec {μ : Mutator} {cutoff lim L : Nat} {a : Algo Dt K} (hc : 1 ≤ cutoff) (hcp : cutoff ≤ a.pop.length) (hl : lim ≤ a.pop.length)
    (hp : AllLen L a.pop) (hnp : AllLen L a.newPop) (h1 : a.newPop.length = a.pop.length) (h2 : a.muts.length = a.pop.length)
    (h3 : a.sys.slots.length = a.pop.length) (h4 : a.sys.slots.Nodup) (h5 : ∀ x < cutoff, (a.sys.fns (idAt a.sys x)).tri ≠ none) :
    ∃ b, newGeneration μ cutoff lim a = some b ∧ GenDone μ cutoff lim a b := by
  obtain ⟨e, he, e1, e2, e3⟩ := elite_spec hp cutoff (a.newPop, a.muts) hcp h1 h2 hnp
  obtain ⟨st, hst, D⟩ := mutLoop_spec (μ := μ) hc hcp hp (lim - cutoff) cutoff 0 (e.1, e.2, a.sys)
    (by simp) le_rfl (by omega) e1 e2
    (by
      intro x hx p hxp
      simp only at hxp
      rw [(e3 x).1, if_neg (by omega)] at hxp
      exact hnp x p hxp) h3 h4 h5
  refine ⟨{ a with pop := st.1, newPop := a.pop, muts := st.2.1, sys := st.2.2 }, ?_, ?_⟩
  · unfold newGeneration
    rw [he]
    simp only [Option.bind_eq_bind, Option.bind_some]
    rw [hst]
    rfl
  · refine ⟨by rw [D.len1]; exact e1, by rw [D.len2]; exact e2, rfl, rfl, rfl, rfl, rfl, D.slots, D.bufs, D.cur, D.k, ?_, ?_, ?_, ?_⟩
    · intro x hx
      simp only
      rw [D.popEq x, D.mutsEq x, if_neg (by omega), if_neg (by omega)]
      simp only
      rw [(e3 x).1, (e3 x).2, if_pos hx, if_pos hx]
      refine ⟨rfl, rfl, D.other _ ?_⟩
      intro y hy1 hy2 e
      have := idAt_inj h4 (by omega) (by omega) e
      omega
    · intro x hx1 hx2
      simp only
      rw [D.popEq x, D.mutsEq x, if_pos (by omega), if_pos (by omega)]
      exact ⟨rfl, rfl, D.fns x hx1 (by omega)⟩
    · intro x hx1 hx2
      simp only
      rw [D.popEq x, D.mutsEq x, if_neg (by omega), if_neg (by omega)]
      simp only
      rw [(e3 x).1, (e3 x).2, if_neg (by omega), if_neg (by omega)]
      exact ⟨rfl, rfl⟩
    · intro id hid
      exact D.other id (fun x hx1 hx2 => hid x hx1 (by omega))

/-! ### Collecting -/

theorem collect_len (fit : List ℚ) (arr : List (Nat × ℚ)) : (collect fit arr).length = fit.length := by
  unfold collect
  induction arr generalizing fit with
  | nil => rfl
  | cons x arr ih => rw [List.foldl_cons, ih]; simp

theorem collect_get {V : Nat → ℚ} : ∀ (ar : List Nat) (fit : List ℚ) (x : Nat), (∀ i ∈ ar, i < fit.length) →
    (collect fit (ar.map fun i => (i, V i)))[x]? = if x ∈ ar then some (V x) else fit[x]? := by
  intro ar
  induction ar with
  | nil => intro fit x _; simp [collect]
  | cons i ar ih =>
    intro fit x h
    have : collect fit ((i :: ar).map fun i => (i, V i)) = collect (fit.set i (V i)) (ar.map fun i => (i, V i)) := rfl
    rw [this, ih _ _ (by intro j hj; simpa using h j (List.mem_cons_of_mem _ hj)), get_set (h i (by simp))]
    by_cases hx : x ∈ ar
    · rw [if_pos hx, if_pos (by simp [hx])]
    · rw [if_neg hx]
      by_cases hxi : x = i
      · subst hxi; simp
      · rw [if_neg hxi, if_neg (by simp [hxi, hx])]

/-! ### Swaps -/

theorem swapList_get {α : Type} {l l' : List α} {i j : Nat} (h : swapList l i j = some l') :
    i < l.length ∧ j < l.length ∧ l'.length = l.length ∧ (∀ x, l'[x]? = if x = j then l[i]? else if x = i then l[j]? else l[x]?) := by
  unfold swapList at h
  cases ha : l[i]? with
  | none => rw [ha] at h; exact absurd h (by simp)
  | some u =>
    cases hb : l[j]? with
    | none => rw [ha, hb] at h; exact absurd h (by simp)
    | some v =>
      rw [ha, hb] at h
      simp only [Option.bind_eq_bind, Option.bind_some, Option.some.injEq] at h
      subst h
      have hi := (List.getElem?_eq_some_iff.mp ha).1
      have hj := (List.getElem?_eq_some_iff.mp hb).1
      refine ⟨hi, hj, by simp, ?_⟩
      intro x
      rw [get_set (by simpa using hj), get_set hi]

theorem swapList_some {α : Type} {l : List α} {i j : Nat} (hi : i < l.length) (hj : j < l.length) : ∃ l', swapList l i j = some l' := by
  unfold swapList
  rw [List.getElem?_eq_getElem hi, List.getElem?_eq_getElem hj]
  exact ⟨_, rfl⟩

theorem swapList_perm {α : Type} {l l' : List α} {i j : Nat} (h : swapList l i j = some l') : l'.Perm l := by
  classical
  obtain ⟨hi, hj, hlen, hg⟩ := swapList_get h
  have key : l' = (List.range l.length).map (fun x => l[Equiv.swap i j x]?.getD (l[i])) := by
    apply List.ext_getElem?
    intro x
    rw [hg x, List.getElem?_map]
    by_cases hx : x < l.length
    · rw [List.getElem?_range hx]
      simp only [Option.map_some]
      by_cases h1 : x = j
      · subst h1; rw [if_pos rfl, Equiv.swap_apply_right, List.getElem?_eq_getElem hi]; rfl
      · rw [if_neg h1]
        by_cases h2 : x = i
        · subst h2; rw [if_pos rfl, Equiv.swap_apply_left, List.getElem?_eq_getElem hj]; rfl
        · rw [if_neg h2, Equiv.swap_apply_of_ne_of_ne h2 h1, List.getElem?_eq_getElem hx]; rfl
    · have : (List.range l.length)[x]? = none := by simp; omega
      rw [this]
      simp only [Option.map_none]
      rw [if_neg (by omega), if_neg (by omega)]
      simp; omega
  have key2 : l = (List.range l.length).map (fun x => l[x]?.getD (l[i])) := by
    apply List.ext_getElem?
    intro x
    rw [List.getElem?_map]
    by_cases hx : x < l.length
    · rw [List.getElem?_range hx]; simp [hx]
    · have : (List.range l.length)[x]? = none := by simp; omega
      rw [this]; simp; omega
  have e : (fun x => l[Equiv.swap i j x]?.getD (l[i])) = (fun x => l[x]?.getD (l[i])) ∘ (Equiv.swap i j) := rfl
  rw [key, e, ← List.map_map]
  conv_rhs => rw [key2]
  apply List.Perm.map
  rw [List.perm_ext_iff_of_nodup (List.nodup_range.map (Equiv.swap i j).injective) List.nodup_range]
  intro x
  rw [List.mem_map]
  constructor
  · rintro ⟨y, hy, rfl⟩
    rw [List.mem_range] at hy ⊢
    rw [Equiv.swap_apply_def]
    split
    · exact hj
    · split
      · exact hi
      · exact hy
  · intro hx
    rw [List.mem_range] at hx
    refine ⟨Equiv.swap i j x, ?_, Equiv.swap_apply_self ..⟩
    rw [List.mem_range, Equiv.swap_apply_def]
    split
    · exact hj
    · split
      · exact hi
      · exact hx

/-- Relation of a member to its fitness function and fitness. -/
abbrev MemRel (Dt K : Type) := Sys Dt K → Nat → List NP → ℚ → Prop

/-- All members are in relation. -/
def Members (M : MemRel Dt K) (a : Algo Dt K) : Prop :=
  ∀ (x : Nat) (p : List NP) (v : ℚ) (id : Nat), a.pop[x]? = some p → a.fit[x]? = some v → a.sys.slots[x]? = some id → M a.sys id p v

/-- What a sequence of swaps keeps, for a relation that does not look at the order of the functions. -/
theorem swaps_spec {M : MemRel Dt K} (hM : ∀ (s : Sys Dt K) l id p v, M s id p v → M { s with slots := l } id p v) :
    ∀ (sw : List (Nat × Nat)) {a : Algo Dt K} {f : List ℚ}, Members M a → a.pop.length = a.fit.length → a.sys.slots.length = a.fit.length →
      sw.foldlM (fun l x => swapList l x.1 x.2) a.fit = some f →
      ∃ b, sw.foldlM swapAlgo a = some b ∧ Members M b ∧ b.fit = f ∧ b.fit.Perm a.fit ∧ b.pop.Perm a.pop ∧ b.sys.slots.Perm a.sys.slots ∧
        b = { a with fit := b.fit, pop := b.pop, sys := { a.sys with slots := b.sys.slots } } := by
  intro sw
  induction sw with
  | nil =>
    intro a f hm _ _ h
    simp only [List.foldlM_nil, Option.pure_def, Option.some.injEq] at h
    exact ⟨a, rfl, hm, h, List.Perm.refl _, List.Perm.refl _, List.Perm.refl _, rfl⟩
  | cons x sw ih =>
    intro a f hm h1 h2 h
    rw [List.foldlM_cons] at h
    cases hf : swapList a.fit x.1 x.2 with
    | none => rw [hf] at h; exact absurd h (by simp)
    | some f1 =>
      rw [hf] at h
      simp only [Option.bind_eq_bind, Option.bind_some] at h
      obtain ⟨hi, hj, hlen, hg⟩ := swapList_get hf
      obtain ⟨p1, hp1⟩ := swapList_some (l := a.pop) (i := x.1) (j := x.2) (by omega) (by omega)
      obtain ⟨s1, hs1⟩ := swapList_some (l := a.sys.slots) (i := x.1) (j := x.2) (by omega) (by omega)
      obtain ⟨_, _, plen, pg⟩ := swapList_get hp1
      obtain ⟨_, _, slen, sg⟩ := swapList_get hs1
      have hsw : swapAlgo a x = some { a with fit := f1, pop := p1, sys := { a.sys with slots := s1 } } := by
        unfold swapAlgo swap
        rw [hf, hp1, hs1]
        rfl
      obtain ⟨b, hb, B1, B2, B3, B4, B5, B6⟩ := ih (a := { a with fit := f1, pop := p1, sys := { a.sys with slots := s1 } }) (f := f)
        (by
          intro y p v id hp hv hid
          simp only at hp hv hid ⊢
          apply hM
          rw [pg y] at hp
          rw [hg y] at hv
          rw [sg y] at hid
          by_cases y1 : y = x.2
          · rw [if_pos y1] at hp hv hid; exact hm _ _ _ _ hp hv hid
          · rw [if_neg y1] at hp hv hid
            by_cases y2 : y = x.1
            · rw [if_pos y2] at hp hv hid; exact hm _ _ _ _ hp hv hid
            · rw [if_neg y2] at hp hv hid; exact hm _ _ _ _ hp hv hid)
        (by simp only; omega) (by simp only; omega) h
      refine ⟨b, by rw [List.foldlM_cons, hsw]; exact hb, B1, B2, B3.trans (swapList_perm hf), B4.trans (swapList_perm hp1),
        B5.trans (swapList_perm hs1), ?_⟩
      rw [B6]

end Verif.Alg

import Verif.Alg.Inv

/-!
# Executions of the simple algorithm
-/

namespace Verif.Alg

open Verif.Fit

variable {Dt K : Type} {F : Fun Dt K} {ok : K → Prop} {Dom : NP → Prop} {N : Nat} {Repr : Dt → List NP → Prop}

/-- The invariant of the simple algorithm between steps. -/
structure SInv (F : Fun Dt K) (ok : K → Prop) (Dom : NP → Prop) (N : Nat) (Repr : Dt → List NP → Prop) (a : Algo Dt K) : Prop where
  shape : Shape F ok Dom N a
  members : Members (Evaluated F Repr) a
  sorted : a.fit.Pairwise (· ≥ ·)
  best : a.pop[0]? = some a.best
  bestFit : a.fit[0]? = some a.bestFit

theorem evaluated_slots (s : Sys Dt K) (l : List Nat) (id : Nat) (p : List NP) (v : ℚ) (h : Evaluated F Repr s id p v) :
    Evaluated F Repr { s with slots := l } id p v := h

theorem Shape.evalAt {a : Algo Dt K} (S : Shape F ok Dom N a) (hm : Members (Evaluated F Repr) a) : ∀ x < a.pop.length, EvalAt F Repr a x := by
  intro x hx
  have h1 : a.pop[x]? = some a.pop[x] := List.getElem?_eq_getElem hx
  have h2 : a.fit[x]? = some (a.fit[x]'(by rw [S.lenF]; exact hx)) := List.getElem?_eq_getElem _
  exact ⟨_, _, h1, h2, hm x _ _ _ h1 h2 (slots_idAt (by rw [S.lenS]; exact hx))⟩

/-- The state after the first `lim` members were evaluated. -/
def evalState (b : Algo Dt K) (q : Ph Dt K) : Algo Dt K := { b with sys := q.sys, fit := collect b.fit q.arr }

theorem evalState_shape {b : Algo Dt K} {lim : Nat} {T : Nat → Dt} {V : Nat → ℚ} {q : Ph Dt K} (S : Shape F ok Dom N b)
    (Dn : PhaseDone F ok lim b.sys T V q) : Shape F ok Dom N (evalState b q) := by
  unfold evalState
  refine ⟨S.pos, S.lenN, ?_, S.lenM, ?_, ?_, ?_, ?_, S.pop, S.newPop, S.best⟩
  · simp only; rw [collect_len]; exact S.lenF
  · simp only; rw [Dn.slots]; exact S.lenS
  · simp only; rw [Dn.slots]; exact S.nodup
  · simp only; rw [Dn.k]; exact S.k
  · intro x y e he; simp only; rw [Dn.k]; exact Dn.bufs x y e he

/-- After a phase that evaluates all members, all are evaluated. -/
theorem evalState_members {b : Algo Dt K} {T : Nat → Dt} {V : Nat → ℚ} {q : Ph Dt K} {muts : Nat → List Mut} (S : Shape F ok Dom N b)
    (H : PhaseOK F ok b.pop.length (ptsOf b) muts b.sys T V) (hr : ∀ i < b.pop.length, Repr (T i) (ptsOf b i))
    (Dn : PhaseDone F ok b.pop.length b.sys T V q) : Members (Evaluated F Repr) (evalState b q) := by
  intro x p v id hp hv hid
  unfold evalState at hp hv hid ⊢
  simp only at hp hv hid ⊢
  have hx := (List.getElem?_eq_some_iff.mp hp).1
  rw [phase_fit (by rw [S.lenF]) Dn, if_pos hx, Option.some.injEq] at hv
  subst hv
  rw [Dn.slots] at hid
  have := phase_eval H hr Dn x hx
  rw [idAt_eq hid] at this
  have hpt : ptsOf b x = p := by unfold ptsOf; rw [List.getD_eq_getElem?_getD, hp]; rfl
  rw [hpt] at this
  exact this

/-- The shape after `newGeneration`. -/
theorem gen_shape {μ : Mutator} (hμ : MutOK Dom N μ) {cutoff lim : Nat} {a b : Algo Dt K} (S : Shape F ok Dom N a)
    (G : GenDone μ cutoff lim a b) : Shape F ok Dom N b := by
  refine ⟨by rw [G.len]; exact S.pos, by rw [G.newPop, G.len], by rw [G.fit, G.len]; exact S.lenF, by rw [G.lenM, G.len],
    by rw [G.slots, G.len]; exact S.lenS, by rw [G.slots]; exact S.nodup, by rw [G.k]; exact S.k, ?_, ?_, by rw [G.newPop]; exact S.pop,
    by rw [G.best]; exact S.best⟩
  · intro x y e he
    rw [G.bufs] at he
    rw [G.k]
    exact S.bufs x y e he
  · intro p hp
    obtain ⟨x, hx⟩ := List.getElem?_of_mem hp
    by_cases h1 : x < cutoff
    · rw [(G.elite x h1).1] at hx
      exact S.pop p (List.mem_of_getElem? hx)
    · by_cases h2 : x < lim
      · rw [(G.mutd x (by omega) h2).1] at hx
        cases hp' : a.pop[x % cutoff]? with
        | none => rw [hp'] at hx; cases hx
        | some p' =>
          rw [hp'] at hx
          simp only [Option.map_some, Option.some.injEq] at hx
          subst hx
          have hpo := S.pop p' (List.mem_of_getElem? hp')
          have M := hμ x p' hpo.1 hpo.2
          exact ⟨by rw [M.len]; exact hpo.1, M.domain hpo.2⟩
      · rw [(G.rest x (by omega) (by omega)).1] at hx
        exact S.newPop p (List.mem_of_getElem? hx)

/-- A step cannot fail: `newGeneration` does not panic, and afterwards everything is in place for the evaluation. -/
theorem SInv.gen (L : Laws F ok Dom N Repr) {μ : Mutator} (hμ : MutOK Dom N μ) {cutoff : Nat} {a : Algo Dt K} (I : SInv F ok Dom N Repr a)
    (hc : 1 ≤ cutoff) (hcp : cutoff ≤ a.pop.length) :
    ∃ b T V, newGeneration μ cutoff a.pop.length a = some b ∧ GenDone μ cutoff a.pop.length a b ∧ Shape F ok Dom N b ∧
      PhaseOK F ok b.pop.length (ptsOf b) (mutsOf b) b.sys T V ∧ (∀ i < b.pop.length, Repr (T i) (ptsOf b i)) ∧ (∀ i < cutoff, a.fit[i]? = some (V i)) := by
  have hE := I.shape.evalAt I.members
  obtain ⟨b, hb, G⟩ := newGeneration_spec (μ := μ) (cutoff := cutoff) (lim := a.pop.length) hc hcp le_rfl I.shape.allLen I.shape.allLen' I.shape.lenN I.shape.lenM
    I.shape.lenS I.shape.nodup (by
      intro x hx
      obtain ⟨_, _, _, _, d, ht, _⟩ := hE x (by omega)
      rw [ht]
      simp)
  obtain ⟨T, V, H, hr, hv, _⟩ := gen_phase L hμ I.shape hc hcp le_rfl hE G
  exact ⟨b, T, V, hb, G, gen_shape hμ I.shape G, by rw [G.len]; exact H, by rw [G.len]; exact hr, hv⟩

/-- The evaluation and the sorting after it. -/
theorem simple_finish {srt : Sorter} (hs : SortOK srt) {b : Algo Dt K} {T : Nat → Dt} {V : Nat → ℚ} {l : List Who} {q : Ph Dt K} (S : Shape F ok Dom N b)
    (H : PhaseOK F ok b.pop.length (ptsOf b) (mutsOf b) b.sys T V) (hr : ∀ i < b.pop.length, Repr (T i) (ptsOf b i))
    (h : Run F b.pop.length (ptsOf b) (mutsOf b) (Ph.start b.sys) l q) (hf : q.Finished b.pop.length) :
    ∃ c, updateFitnesses srt (evalState b q) = some c ∧ SInv F ok Dom N Repr c ∧ Updated (Evaluated F Repr) (evalState b q) c ∧
      PhaseDone F ok b.pop.length b.sys T V q := by
  have Dn := phase_done H h hf
  obtain ⟨c, hc, U, Sc⟩ := update_spec hs (M := Evaluated F Repr) (fun s l id p v => evaluated_slots s l id p v) (evalState_shape S Dn) (evalState_members S H hr Dn)
  exact ⟨c, hc, ⟨Sc, U.members, U.sorted, U.best, U.bestFit⟩, U, Dn⟩

/-- One step keeps the invariant. -/
theorem SInv.step (L : Laws F ok Dom N Repr) {srt : Sorter} (hs : SortOK srt) {μ : Mutator} (hμ : MutOK Dom N μ) {cutoff : Nat} {l : List Who} {a a' : Algo Dt K}
    (I : SInv F ok Dom N Repr a) (hc : 1 ≤ cutoff) (hcp : cutoff ≤ a.pop.length) (h : SimpleStep F srt cutoff μ l a a') :
    SInv F ok Dom N Repr a' ∧ a'.pop.length = a.pop.length ∧ a'.gen = a.gen + 1 ∧ a.bestFit ≤ a'.bestFit ∧ a'.sys.k = a.sys.k := by
  obtain ⟨b, T, V, hb, G, Sb, H, hr, hv⟩ := I.gen L hμ hc hcp
  obtain ⟨a1, q, a2, h1, h2, h3, h4, rfl⟩ := h
  rw [hb] at h1
  cases h1
  obtain ⟨c, hc', Ic, U, Dn⟩ := simple_finish hs Sb H hr h2 h3
  unfold evalState at hc'
  rw [h4] at hc'
  cases hc'
  have hU := U.eq
  refine ⟨⟨?_, Ic.members, Ic.sorted, Ic.best, Ic.bestFit⟩, ?_, ?_, ?_, ?_⟩
  · have S := Ic.shape
    exact ⟨S.pos, S.lenN, S.lenF, S.lenM, S.lenS, S.nodup, S.k, S.bufs, S.pop, S.newPop, S.best⟩
  · simp only; rw [U.pop.length_eq]; exact G.len
  · have : a2.gen = b.gen := by have := congrArg Algo.gen hU; exact this
    simp only
    rw [this, G.gen]
  · -- the best member was evaluated again, with the same result
    have h0 : a.fit[0]? = some (V 0) := hv 0 (by omega)
    have hV : a.bestFit = V 0 := by
      have := I.bestFit
      rw [h0] at this
      simpa using this.symm
    rw [hV]
    apply sorted_head Ic.sorted Ic.bestFit
    apply U.fit.mem_iff.mpr
    have : (collect b.fit q.arr)[0]? = some (V 0) := by
      rw [phase_fit (by rw [Sb.lenF]) Dn, if_pos Sb.pos]
    exact List.mem_of_getElem? this
  · have : a2.sys.k = q.sys.k := by have := congrArg (fun z : Algo Dt K => z.sys.k) hU; exact this
    simp only
    rw [this, Dn.k, G.k]

/-- The constructor's fields are in place for the evaluation of the first `lim` members. -/
theorem init_phase (L : Laws F ok Dom N Repr) {init : List (List NP)} {k lim : Nat} (hk : 1 ≤ k) (hl : 1 ≤ lim) (hlim : lim ≤ init.length)
    (hi : ∀ p ∈ init, p.length = N ∧ ∀ q ∈ p, Dom q) :
    ∃ b : Algo Dt K, ∃ T V, simpleInit init k = some b ∧ b.pop = init ∧ b.gen = 0 ∧ b.sys = newParallel init.length k ∧ (∀ x < init.length, b.fit[x]? = some 0) ∧ (∀ x, mutsOf b x = []) ∧ Shape F ok Dom N b ∧
      PhaseOK F ok lim (ptsOf b) (mutsOf b) b.sys T V ∧ ∀ i < lim, Repr (T i) (ptsOf b i) := by
  have h0 : 0 < init.length := by omega
  have g0 : init[0]? = some init[0] := List.getElem?_eq_getElem h0
  let b : Algo Dt K := ⟨newParallel init.length k, init, init, List.replicate init.length 0, List.replicate init.length [], init[0], 0, 0⟩
  have hb : simpleInit init k = some b := by unfold simpleInit; rw [g0]; rfl
  have S : Shape F ok Dom N b := by
    refine ⟨h0, rfl, by simp [b], by simp [b], by simp [b, newParallel], ?_, hk, ?_, hi, hi, (hi _ (List.getElem_mem h0)).1⟩
    · exact List.nodup_range
    · intro x y e he
      simp [b, newParallel] at he
  have key : ∀ i, i < lim → ∃ d v, setup F (b.sys.fns (idAt b.sys i)) (fun x => (b.sys.fns x).tri) (ptsOf b i) (mutsOf b i) = some d ∧
      Repr d (ptsOf b i) ∧ plain F d = some v := by
    intro i hi'
    have hil : i < init.length := by omega
    have hpt : ptsOf b i = init[i] := by
      unfold ptsOf
      have : b.pop[i]? = some init[i] := List.getElem?_eq_getElem hil
      rw [List.getD_eq_getElem?_getD, this]; rfl
    have hpo := hi _ (List.getElem_mem hil)
    obtain ⟨d0, d, h1, h2, h3⟩ := L.build init[i] hpo.1 hpo.2
    obtain ⟨v, hv⟩ := L.plain h3
    refine ⟨d, v, ?_, by rw [hpt]; exact h3, hv⟩
    unfold setup
    have : (b.sys.fns (idAt b.sys i)).tri = none := rfl
    rw [this, hpt]
    simp only [h1, Option.bind_eq_bind, Option.bind_some]
    exact h2
  have hne : Nonempty Dt := by
    obtain ⟨d, _⟩ := key 0 (by omega)
    exact ⟨d⟩
  choose! T V h using key
  refine ⟨b, T, V, hb, rfl, rfl, rfl, ?_, ?_, S, ⟨L.same, S.nodup, by rw [S.lenS]; exact hlim, S.k, S.bufs, ?_, ?_, ?_, ?_, ?_⟩, ?_⟩
  · intro x hx; simp [b, hx]
  · intro x
    unfold mutsOf
    rw [List.getD_eq_getElem?_getD]
    simp only [b, List.getElem?_replicate]
    split <;> rfl
  · intro i _; exact Or.inl rfl
  · intro i _ j hj
    have : (b.sys.fns (idAt b.sys i)).base = none := rfl
    rw [this] at hj
    cases hj
  · intro i hi'; exact (h i hi').1
  · intro i hi'; exact L.key _ _ (h i hi').2.1
  · intro i hi'; exact (h i hi').2.2
  · intro i hi'; exact (h i hi').2.1

/-- The constructor establishes the invariant. -/
theorem SInv.new (L : Laws F ok Dom N Repr) {srt : Sorter} (hs : SortOK srt) {init : List (List NP)} {k : Nat} (hk : 1 ≤ k) (h0 : 1 ≤ init.length)
    (hi : ∀ p ∈ init, p.length = N ∧ ∀ q ∈ p, Dom q) {l : List Who} {a : Algo Dt K} (h : NewSimple F srt init k l a) :
    SInv F ok Dom N Repr a ∧ a.pop.length = init.length ∧ a.gen = 0 := by
  obtain ⟨b, T, V, hb, hp, hg, _, _, _, S, H, hr⟩ := init_phase L hk h0 le_rfl hi
  obtain ⟨a1, q, h1, h2, h3, h4⟩ := h
  rw [hb] at h1
  cases h1
  rw [hp] at h2 h3
  rw [← hp] at H hr
  rw [← hp] at h2 h3
  obtain ⟨c, hc', Ic, U, Dn⟩ := simple_finish hs S H hr h2 h3
  unfold evalState at hc'
  rw [h4] at hc'
  cases hc'
  refine ⟨Ic, ?_, ?_⟩
  · rw [U.pop.length_eq]; exact congrArg List.length hp
  · have := congrArg Algo.gen U.eq
    exact this.trans hg

/-- The invariant holds in every execution. -/
theorem SInv.exec (L : Laws F ok Dom N Repr) {srt : Sorter} (hs : SortOK srt) {cutoff : Nat} {init : List (List NP)} {k : Nat} (hk : 1 ≤ k)
    (hc : 1 ≤ cutoff) (hcp : cutoff ≤ init.length) (hi : ∀ p ∈ init, p.length = N ∧ ∀ q ∈ p, Dom q) {g : Nat} {a : Algo Dt K}
    (h : SimpleExec F srt cutoff (MutOK Dom N) init k g a) : SInv F ok Dom N Repr a ∧ a.pop.length = init.length ∧ a.gen = g := by
  induction h with
  | new h => exact SInv.new L hs hk (by omega) hi h
  | step _ hμ hst ih =>
    obtain ⟨I, h1, h2⟩ := ih
    obtain ⟨I', h3, h4, _⟩ := I.step L hs hμ hc (by omega) hst
    exact ⟨I', by omega, by omega⟩

end Verif.Alg

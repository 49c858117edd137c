import Verif.Alg.Simple

/-!
# States that differ in cache contents only
-/

namespace Verif.Alg

open Verif.Fit

variable {Dt K : Type} {F : Fun Dt K} {ok : K → Prop} {Dom : NP → Prop} {N : Nat} {Repr : Dt → List NP → Prop}

/-- Two evaluators that agree up to the contents of caches. -/
structure SimSys (s t : Sys Dt K) : Prop where
  slots : s.slots = t.slots
  cur : s.cur = t.cur
  k : s.k = t.k
  tri : ∀ id, (s.fns id).tri = (t.fns id).tri
  base : ∀ id, (s.fns id).base = (t.fns id).base
  cache : ∀ id, (s.fns id).cache = (t.fns id).cache

/-- Two states that agree up to the contents of caches. -/
structure Sim (a b : Algo Dt K) : Prop where
  sys : SimSys a.sys b.sys
  pop : a.pop = b.pop
  newPop : a.newPop = b.newPop
  fit : a.fit = b.fit
  muts : a.muts = b.muts
  best : a.best = b.best
  bestFit : a.bestFit = b.bestFit
  gen : a.gen = b.gen

theorem SimSys.refl (s : Sys Dt K) : SimSys s s := ⟨rfl, rfl, rfl, fun _ => rfl, fun _ => rfl, fun _ => rfl⟩

theorem Sim.refl (a : Algo Dt K) : Sim a a := ⟨SimSys.refl _, rfl, rfl, rfl, rfl, rfl, rfl, rfl⟩

theorem Sim.gen_done {μ : Mutator} {cutoff lim : Nat} {a b a' b' : Algo Dt K} (h : Sim a b)
    (G : GenDone μ cutoff lim a a') (G' : GenDone μ cutoff lim b b') : Sim a' b' := by
  have hid : ∀ i, idAt a.sys i = idAt b.sys i := fun i => idAt_slots h.sys.slots i
  have hp : a'.pop = b'.pop := by
    apply List.ext_getElem?
    intro x
    by_cases h1 : x < cutoff
    · rw [(G.elite x h1).1, (G'.elite x h1).1, h.pop]
    · by_cases h2 : x < lim
      · rw [(G.mutd x (by omega) h2).1, (G'.mutd x (by omega) h2).1, h.pop]
      · rw [(G.rest x (by omega) (by omega)).1, (G'.rest x (by omega) (by omega)).1, h.newPop]
  have hm : a'.muts = b'.muts := by
    apply List.ext_getElem?
    intro x
    by_cases h1 : x < cutoff
    · rw [(G.elite x h1).2.1, (G'.elite x h1).2.1]
    · by_cases h2 : x < lim
      · rw [(G.mutd x (by omega) h2).2.1, (G'.mutd x (by omega) h2).2.1, h.pop]
      · rw [(G.rest x (by omega) (by omega)).2, (G'.rest x (by omega) (by omega)).2, h.muts]
  have hf : ∀ id, (∃ x, cutoff ≤ x ∧ x < lim ∧ id = idAt a.sys x) ∨ (∀ x, cutoff ≤ x → x < lim → id ≠ idAt a.sys x) := by
    intro id
    by_cases e : ∃ x, cutoff ≤ x ∧ x < lim ∧ id = idAt a.sys x
    · exact Or.inl e
    · right
      intro x h1 h2 h3
      exact e ⟨x, h1, h2, h3⟩
  refine ⟨⟨by rw [G.slots, G'.slots, h.sys.slots], by rw [G.cur, G'.cur, h.sys.cur], by rw [G.k, G'.k, h.sys.k], ?_, ?_, ?_⟩, hp,
    by rw [G.newPop, G'.newPop, h.pop], by rw [G.fit, G'.fit, h.fit], hm, by rw [G.best, G'.best, h.best],
    by rw [G.bestFit, G'.bestFit, h.bestFit], by rw [G.gen, G'.gen, h.gen]⟩
  · intro id
    rcases hf id with ⟨x, h1, h2, rfl⟩ | h1
    · rw [(G.mutd x h1 h2).2.2, hid x, (G'.mutd x h1 h2).2.2]
      exact h.sys.tri _
    · rw [G.other id h1, G'.other id (fun x a b => by rw [← hid]; exact h1 x a b)]
      exact h.sys.tri _
  · intro id
    rcases hf id with ⟨x, h1, h2, rfl⟩ | h1
    · rw [(G.mutd x h1 h2).2.2, hid x, (G'.mutd x h1 h2).2.2, hid]
    · rw [G.other id h1, G'.other id (fun x a b => by rw [← hid]; exact h1 x a b)]
      exact h.sys.base _
  · intro id
    rcases hf id with ⟨x, h1, h2, rfl⟩ | h1
    · rw [(G.mutd x h1 h2).2.2, hid x, (G'.mutd x h1 h2).2.2]
      exact h.sys.cache _
    · rw [G.other id h1, G'.other id (fun x a b => by rw [← hid]; exact h1 x a b)]
      exact h.sys.cache _

/-- The expected triangulations and fitnesses do not depend on cache contents. -/
theorem SimSys.targets {s t : Sys Dt K} (h : SimSys s t) {n : Nat} {pts : Nat → List NP} {muts : Nat → List Mut} {T T' : Nat → Dt} {V V' : Nat → ℚ}
    (H : PhaseOK F ok n pts muts s T V) (H' : PhaseOK F ok n pts muts t T' V') : ∀ i < n, T i = T' i ∧ V i = V' i := by
  intro i hi
  have h1 := H.target i hi
  have h2 := H'.target i hi
  have e : setup F (s.fns (idAt s i)) (fun b => (s.fns b).tri) (pts i) (muts i) = setup F (t.fns (idAt t i)) (fun b => (t.fns b).tri) (pts i) (muts i) := by
    unfold setup
    rw [idAt_slots h.slots, h.tri, h.base]
    simp only [h.tri]
  rw [e, h2, Option.some.injEq] at h1
  have h3 := H.val i hi
  rw [← h1, H'.val i hi, Option.some.injEq] at h3
  exact ⟨h1.symm, h3.symm⟩

/-- Finished runs of similar states are similar. -/
theorem SimSys.done {s t : Sys Dt K} (h : SimSys s t) {n : Nat} {T T' : Nat → Dt} {V V' : Nat → ℚ} {q r : Ph Dt K}
    (e : ∀ i < n, T i = T' i ∧ V i = V' i) (D : PhaseDone F ok n s T V q) (D' : PhaseDone F ok n t T' V' r) : SimSys q.sys r.sys := by
  have hid : ∀ i, idAt s i = idAt t i := fun i => idAt_slots h.slots i
  have hf : ∀ id, (∃ x < n, id = idAt s x) ∨ (∀ x < n, id ≠ idAt s x) := by
    intro id
    by_cases e : ∃ x < n, id = idAt s x
    · exact Or.inl e
    · right
      intro x h1 h2
      exact e ⟨x, h1, h2⟩
  refine ⟨by rw [D.slots, D'.slots, h.slots], by rw [D.cur, D'.cur, h.cur], by rw [D.k, D'.k, h.k], ?_, ?_, ?_⟩
  · intro id
    rcases hf id with ⟨x, h1, rfl⟩ | h1
    · rw [(D.fns x h1).1.tri, hid x, (D'.fns x h1).1.tri, (e x h1).1]
    · rw [D.other id h1, D'.other id (fun x a => by rw [← hid]; exact h1 x a)]; exact h.tri id
  · intro id
    rcases hf id with ⟨x, h1, rfl⟩ | h1
    · rw [(D.fns x h1).1.base, hid x, (D'.fns x h1).1.base]
    · rw [D.other id h1, D'.other id (fun x a => by rw [← hid]; exact h1 x a)]; exact h.base id
  · intro id
    rcases hf id with ⟨x, h1, rfl⟩ | h1
    · rw [(D.fns x h1).2, hid x, (D'.fns x h1).2, h.cur]
    · rw [D.other id h1, D'.other id (fun x a => by rw [← hid]; exact h1 x a)]; exact h.cache id

theorem Sim.evalState {a b : Algo Dt K} (h : Sim a b) {n : Nat} (hn : n ≤ a.fit.length) {T T' : Nat → Dt} {V V' : Nat → ℚ} {q r : Ph Dt K}
    (e : ∀ i < n, T i = T' i ∧ V i = V' i) (D : PhaseDone F ok n a.sys T V q) (D' : PhaseDone F ok n b.sys T' V' r) : Sim (evalState a q) (evalState b r) := by
  refine ⟨h.sys.done e D D', h.pop, h.newPop, ?_, h.muts, h.best, h.bestFit, h.gen⟩
  apply List.ext_getElem?
  intro x
  show (collect a.fit q.arr)[x]? = (collect b.fit r.arr)[x]?
  rw [phase_fit hn D, phase_fit (by rw [← h.fit]; exact hn) D', h.fit]
  by_cases hx : x < n
  · rw [if_pos hx, if_pos hx, (e x hx).2]
  · rw [if_neg hx, if_neg hx]

theorem Sim.swap {a b a' : Algo Dt K} (h : Sim a b) {x : Nat × Nat} (hs : swapAlgo a x = some a') : ∃ b', swapAlgo b x = some b' ∧ Sim a' b' := by
  unfold swapAlgo Alg.swap at hs ⊢
  rw [← h.fit, ← h.pop, ← h.sys.slots]
  cases h1 : swapList a.fit x.1 x.2 with
  | none => rw [h1] at hs; exact absurd hs (by simp)
  | some f =>
    cases h2 : swapList a.pop x.1 x.2 with
    | none => rw [h1, h2] at hs; exact absurd hs (by simp)
    | some p =>
      cases h3 : swapList a.sys.slots x.1 x.2 with
      | none => rw [h1, h2, h3] at hs; exact absurd hs (by simp)
      | some l =>
        rw [h1, h2, h3] at hs
        cases hs
        exact ⟨_, rfl, ⟨rfl, h.sys.cur, h.sys.k, h.sys.tri, h.sys.base, h.sys.cache⟩, rfl, h.newPop, rfl, h.muts, h.best, h.bestFit, h.gen⟩

theorem Sim.swaps : ∀ (l : List (Nat × Nat)) {a b a' : Algo Dt K}, Sim a b → l.foldlM swapAlgo a = some a' → ∃ b', l.foldlM swapAlgo b = some b' ∧ Sim a' b' := by
  intro l
  induction l with
  | nil => intro a b a' h hs; simp only [List.foldlM_nil, Option.pure_def, Option.some.injEq] at hs; subst hs; exact ⟨b, rfl, h⟩
  | cons x l ih =>
    intro a b a' h hs
    rw [List.foldlM_cons] at hs
    cases h1 : swapAlgo a x with
    | none => rw [h1] at hs; exact absurd hs (by simp)
    | some a1 =>
      rw [h1] at hs
      obtain ⟨b1, hb1, h1'⟩ := h.swap h1
      obtain ⟨b', hb', h'⟩ := ih h1' hs
      exact ⟨b', by rw [List.foldlM_cons, hb1]; exact hb', h'⟩

theorem Sim.update {srt : Sorter} {a b a' b' : Algo Dt K} (h : Sim a b) (ha : updateFitnesses srt a = some a') (hb : updateFitnesses srt b = some b') : Sim a' b' := by
  unfold updateFitnesses at ha hb
  cases h1 : (srt a.fit).foldlM swapAlgo a with
  | none => rw [h1] at ha; exact absurd ha (by simp)
  | some a1 =>
    obtain ⟨b1, hb1, s1⟩ := h.swaps _ h1
    rw [← h.fit, hb1] at hb
    rw [h1] at ha
    simp only [Option.bind_eq_bind, Option.bind_some] at ha hb
    rw [← s1.pop, ← s1.best, ← s1.fit] at hb
    cases h2 : a1.pop[0]? with
    | none => rw [h2] at ha; exact absurd ha (by simp)
    | some p =>
      rw [h2] at ha hb
      simp only [Option.bind_some] at ha hb
      cases h3 : setPts a1.best p with
      | none => rw [h3] at ha; exact absurd ha (by simp)
      | some bb =>
        rw [h3] at ha hb
        simp only [Option.bind_some] at ha hb
        cases h4 : a1.fit[0]? with
        | none => rw [h4] at ha; exact absurd ha (by simp)
        | some v =>
          rw [h4] at ha hb
          cases ha
          cases hb
          exact ⟨s1.sys, rfl, s1.newPop, rfl, s1.muts, rfl, rfl, s1.gen⟩

theorem Sim.pts {a b : Algo Dt K} (h : Sim a b) : ptsOf a = ptsOf b ∧ mutsOf a = mutsOf b := by
  unfold ptsOf mutsOf
  rw [h.pop, h.muts]
  exact ⟨rfl, rfl⟩

/-- A step does not depend on the schedule, nor on the contents of caches. -/
theorem Sim.step (L : Laws F ok Dom N Repr) {srt : Sorter} {μ : Mutator} (hμ : MutOK Dom N μ) {cutoff : Nat} {l l' : List Who} {a b a' b' : Algo Dt K}
    (h : Sim a b) (I : SInv F ok Dom N Repr a) (J : SInv F ok Dom N Repr b) (hc : 1 ≤ cutoff) (hcp : cutoff ≤ a.pop.length)
    (ha : SimpleStep F srt cutoff μ l a a') (hb : SimpleStep F srt cutoff μ l' b b') : Sim a' b' := by
  obtain ⟨c, T, V, hgc, G, Sc, H, hr, _⟩ := I.gen L hμ hc hcp
  obtain ⟨d, T', V', hgd, G', Sd, H', hr', _⟩ := J.gen L hμ hc (by rw [← h.pop]; exact hcp)
  obtain ⟨c', q, c2, h1, h2, h3, h4, rfl⟩ := ha
  obtain ⟨d', r, d2, h1', h2', h3', h4', rfl⟩ := hb
  rw [hgc] at h1
  cases h1
  rw [hgd] at h1'
  cases h1'
  have hcd : Sim c d := by
    rw [← h.pop] at G'
    exact h.gen_done G G'
  have hlen : c.pop.length = d.pop.length := by rw [hcd.pop]
  have D := phase_done H h2 h3
  have D' := phase_done H' h2' h3'
  rw [← hlen, ← hcd.pts.1, ← hcd.pts.2] at H'
  rw [← hlen] at D'
  have e := hcd.sys.targets H H'
  have hev := hcd.evalState (by rw [Sc.lenF]) e D D'
  have := hev.update h4 h4'
  exact ⟨this.sys, this.pop, this.newPop, this.fit, this.muts, this.best, this.bestFit, by simp only; rw [this.gen]⟩

/-- The constructor does not depend on the schedule. -/
theorem Sim.new (L : Laws F ok Dom N Repr) {srt : Sorter} {init : List (List NP)} {k : Nat} (hk : 1 ≤ k) (h0 : 1 ≤ init.length)
    (hi : ∀ p ∈ init, p.length = N ∧ ∀ q ∈ p, Dom q) {l l' : List Who} {a a' : Algo Dt K} (h : NewSimple F srt init k l a) (h' : NewSimple F srt init k l' a') : Sim a a' := by
  obtain ⟨b, T, V, hb, hp, hg, _, _, _, S, H, hr⟩ := init_phase L hk h0 le_rfl hi
  obtain ⟨a1, q, h1, h2, h3, h4⟩ := h
  obtain ⟨a1', q', h1', h2', h3', h4'⟩ := h'
  rw [hb] at h1 h1'
  cases h1
  cases h1'
  rw [← hp] at H
  have D := phase_done H h2 h3
  have D' := phase_done H h2' h3'
  have hev := (Sim.refl b).evalState (by rw [S.lenF]) (fun i _ => ⟨rfl, rfl⟩) D D'
  exact hev.update h4 h4'

end Verif.Alg

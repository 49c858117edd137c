import Verif.Alg.Gen
import Verif.Alg.Laws

/-!
# The invariant of the algorithms
-/

namespace Verif.Alg

open Verif.Fit

variable {Dt K : Type} {F : Fun Dt K} {ok : K → Prop} {Dom : NP → Prop} {N : Nat} {Repr : Dt → List NP → Prop}

/-- The function of a member that has been evaluated holds the triangulation of its points, and its fitness is the one an uncached evaluation
of this triangulation gives. -/
def Evaluated (F : Fun Dt K) (Repr : Dt → List NP → Prop) : MemRel Dt K := fun s id ps v =>
  ∃ d, (s.fns id).tri = some d ∧ (s.fns id).base = none ∧ (s.fns id).cache = .shared s.cur ∧ Repr d ps ∧ plain F d = some v

/-- The shapes of the fields, and the cache contents. -/
structure Shape (F : Fun Dt K) (ok : K → Prop) (Dom : NP → Prop) (N : Nat) (a : Algo Dt K) : Prop where
  pos : 0 < a.pop.length
  lenN : a.newPop.length = a.pop.length
  lenF : a.fit.length = a.pop.length
  lenM : a.muts.length = a.pop.length
  lenS : a.sys.slots.length = a.pop.length
  nodup : a.sys.slots.Nodup
  k : 1 ≤ a.sys.k
  bufs : ∀ b x e, a.sys.bufs b x = some e → Good F ok a.sys.k e
  pop : ∀ p ∈ a.pop, p.length = N ∧ ∀ q ∈ p, Dom q
  newPop : ∀ p ∈ a.newPop, p.length = N ∧ ∀ q ∈ p, Dom q
  best : a.best.length = N

theorem Shape.allLen {a : Algo Dt K} (S : Shape F ok Dom N a) : AllLen N a.pop := fun _ p h => (S.pop p (List.mem_of_getElem? h)).1

theorem Shape.allLen' {a : Algo Dt K} (S : Shape F ok Dom N a) : AllLen N a.newPop := fun _ p h => (S.newPop p (List.mem_of_getElem? h)).1

/-- What is assumed of a mutator: the mutations it reports are exactly what it did, on distinct points, staying in the domain. -/
def MutOK (Dom : NP → Prop) (N : Nat) (μ : Mutator) : Prop :=
  ∀ i ps, ps.length = N → (∀ p ∈ ps, Dom p) → Mutates Dom ps (μ i ps).1 (μ i ps).2

/-- Member `x` has been evaluated. -/
def EvalAt (F : Fun Dt K) (Repr : Dt → List NP → Prop) (a : Algo Dt K) (x : Nat) : Prop :=
  ∃ p v, a.pop[x]? = some p ∧ a.fit[x]? = some v ∧ Evaluated F Repr a.sys (idAt a.sys x) p v

/-- After `newGeneration` everything is in place for the evaluation of the first `lim` members. -/
theorem gen_phase (L : Laws F ok Dom N Repr) {μ : Mutator} (hμ : MutOK Dom N μ) {cutoff lim : Nat} {a b : Algo Dt K} (S : Shape F ok Dom N a)
    (hc : 1 ≤ cutoff) (hcl : cutoff ≤ lim) (hl : lim ≤ a.pop.length) (hE : ∀ x < lim, EvalAt F Repr a x) (G : GenDone μ cutoff lim a b) :
    ∃ T V, PhaseOK F ok lim (ptsOf b) (mutsOf b) b.sys T V ∧ (∀ i < lim, Repr (T i) (ptsOf b i)) ∧
      (∀ i < cutoff, a.fit[i]? = some (V i)) ∧ (∀ i < cutoff, (a.sys.fns (idAt a.sys i)).tri = some (T i)) := by
  have hid : ∀ i, idAt b.sys i = idAt a.sys i := idAt_slots G.slots
  have key : ∀ i, i < lim → ∃ d v, setup F (b.sys.fns (idAt b.sys i)) (fun x => (b.sys.fns x).tri) (ptsOf b i) (mutsOf b i) = some d ∧
      Repr d (ptsOf b i) ∧ plain F d = some v ∧ (i < cutoff → a.fit[i]? = some v ∧ (a.sys.fns (idAt a.sys i)).tri = some d) ∧
      (b.sys.fns (idAt b.sys i)).cache = .shared b.sys.cur ∧
      (∀ j, (b.sys.fns (idAt b.sys i)).base = some j → ∃ d, (b.sys.fns j).tri = some d ∧ (b.sys.fns j).base = none) := by
    intro i hi
    obtain ⟨p, v, hp, hv, d, ht, hb, hca, hr, hpl⟩ := hE i hi
    rw [hid]
    by_cases hic : i < cutoff
    · obtain ⟨g1, g2, g3⟩ := G.elite i hic
      have hpt : ptsOf b i = p := by unfold ptsOf; rw [List.getD_eq_getElem?_getD, g1, hp]; rfl
      refine ⟨d, v, ?_, by rw [hpt]; exact hr, hpl, fun _ => ⟨hv, ht⟩, by rw [g3, hca, G.cur], ?_⟩
      · unfold setup
        rw [g3, ht, hb]
      · intro j hj
        rw [g3, hb] at hj
        cases hj
    · have hm : i % cutoff < cutoff := Nat.mod_lt _ hc
      obtain ⟨p', v', hp', hv', d', ht', hb', hca', hr', hpl'⟩ := hE (i % cutoff) (by omega)
      obtain ⟨g1, g2, g3⟩ := G.mutd i (by omega) hi
      obtain ⟨_, _, g4⟩ := G.elite (i % cutoff) hm
      rw [hp'] at g1 g2
      have hpt : ptsOf b i = (μ i p').1 := by unfold ptsOf; rw [List.getD_eq_getElem?_getD, g1]; rfl
      have hmt : mutsOf b i = (μ i p').2 := by unfold mutsOf; rw [List.getD_eq_getElem?_getD, g2]; rfl
      have hpo := S.pop p' (List.mem_of_getElem? hp')
      obtain ⟨d2, h2, hr2⟩ := L.upd d p d' p' _ _ hr hr' (hμ i p' hpo.1 hpo.2)
      obtain ⟨v2, hv2⟩ := L.plain hr2
      refine ⟨d2, v2, ?_, by rw [hpt]; exact hr2, hv2, fun h => absurd h hic, by rw [g3]; simp [hca, G.cur], ?_⟩
      · unfold setup
        rw [g3]
        simp only [ht]
        rw [g4, ht', hmt]
        exact h2
      · intro j hj
        rw [g3] at hj
        simp only [Option.some.injEq] at hj
        subst hj
        rw [g4]
        exact ⟨d', ht', hb'⟩
  have hne : Nonempty Dt := by
    obtain ⟨d, _⟩ := key 0 (by omega)
    exact ⟨d⟩
  choose! T V h using key
  refine ⟨T, V, ⟨L.same, by rw [G.slots]; exact S.nodup, by rw [G.slots, S.lenS]; exact hl, by rw [G.k]; exact S.k, ?_, ?_, ?_, ?_, ?_, ?_⟩, ?_, ?_, ?_⟩
  · intro x y e he
    rw [G.bufs] at he
    rw [G.k]
    exact S.bufs x y e he
  · intro i hi; exact Or.inr (h i hi).2.2.2.2.1
  · intro i hi; exact (h i hi).2.2.2.2.2
  · intro i hi; exact (h i hi).1
  · intro i hi; exact L.key _ _ (h i hi).2.1
  · intro i hi; exact (h i hi).2.2.1
  · intro i hi; exact (h i hi).2.1
  · intro i hi; exact ((h i (by omega)).2.2.2.1 hi).1
  · intro i hi; exact ((h i (by omega)).2.2.2.1 hi).2

/-- The members evaluated by a finished run. -/
theorem phase_eval {b : Algo Dt K} {lim : Nat} {T : Nat → Dt} {V : Nat → ℚ} {pts : Nat → List NP} {muts : Nat → List Mut} {q : Ph Dt K}
    (H : PhaseOK F ok lim pts muts b.sys T V) (hr : ∀ i < lim, Repr (T i) (pts i)) (Dn : PhaseDone F ok lim b.sys T V q) :
    ∀ i < lim, Evaluated F Repr q.sys (idAt b.sys i) (pts i) (V i) := by
  intro i hi
  obtain ⟨R, hc⟩ := Dn.fns i hi
  exact ⟨T i, R.tri, R.base, by rw [hc, Dn.cur], hr i hi, H.val i hi⟩

/-- The fitnesses after a finished run. -/
theorem phase_fit {s : Sys Dt K} {fit : List ℚ} {lim : Nat} {T : Nat → Dt} {V : Nat → ℚ} {q : Ph Dt K} (hl : lim ≤ fit.length)
    (Dn : PhaseDone F ok lim s T V q) (x : Nat) : (collect fit q.arr)[x]? = if x < lim then some (V x) else fit[x]? := by
  obtain ⟨ar, hp, ha⟩ := Dn.arr
  have hm : ∀ i, i ∈ ar ↔ i < lim := fun i => by rw [hp.mem_iff, List.mem_range]
  rw [ha, collect_get ar fit x (fun i hi => by have := (hm i).mp hi; omega)]
  by_cases h : x < lim
  · rw [if_pos ((hm x).mpr h), if_pos h]
  · rw [if_neg (fun h' => h ((hm x).mp h')), if_neg h]

/-- What `updateFitnesses` does. -/
structure Updated (M : MemRel Dt K) (a b : Algo Dt K) : Prop where
  members : Members M b
  fit : b.fit.Perm a.fit
  pop : b.pop.Perm a.pop
  slots : b.sys.slots.Perm a.sys.slots
  sorted : b.fit.Pairwise (· ≥ ·)
  best : b.pop[0]? = some b.best
  bestFit : b.fit[0]? = some b.bestFit
  eq : b = { a with fit := b.fit, pop := b.pop, sys := { a.sys with slots := b.sys.slots }, best := b.best, bestFit := b.bestFit }

theorem update_spec {srt : Sorter} (hs : SortOK srt) {M : MemRel Dt K} (hM : ∀ (s : Sys Dt K) l id p v, M s id p v → M { s with slots := l } id p v)
    {a : Algo Dt K} (S : Shape F ok Dom N a) (hm : Members M a) : ∃ b, updateFitnesses srt a = some b ∧ Updated M a b ∧ Shape F ok Dom N b := by
  obtain ⟨f, hf, hsorted⟩ := hs a.fit
  obtain ⟨c, hc, C1, C2, C3, C4, C5, C6⟩ := swaps_spec hM (srt a.fit) hm S.lenF.symm (by rw [S.lenS, S.lenF]) hf
  have hp0 : 0 < c.pop.length := by rw [C4.length_eq]; exact S.pos
  have hf0 : 0 < c.fit.length := by rw [C3.length_eq, S.lenF]; exact S.pos
  have g1 : c.pop[0]? = some c.pop[0] := List.getElem?_eq_getElem hp0
  have g2 : c.fit[0]? = some c.fit[0] := List.getElem?_eq_getElem hf0
  have e1 : c.sys = { a.sys with slots := c.sys.slots } := by have := congrArg Algo.sys C6; exact this
  have e2 : c.newPop = a.newPop := by have := congrArg Algo.newPop C6; exact this
  have e3 : c.muts = a.muts := by have := congrArg Algo.muts C6; exact this
  have e4 : c.gen = a.gen := by have := congrArg Algo.gen C6; exact this
  have hb : c.best = a.best := by have := congrArg Algo.best C6; exact this
  have hlen : a.best.length = c.pop[0].length := by
    rw [S.best, (S.pop _ (C4.mem_iff.mp (List.getElem_mem hp0))).1]
  refine ⟨{ c with best := c.pop[0], bestFit := c.fit[0] }, ?_, ?_, ?_⟩
  · unfold updateFitnesses
    rw [hc]
    simp only [Option.bind_eq_bind, Option.bind_some]
    rw [g1]
    simp only [Option.bind_some, setPts, hb, hlen, if_true]
    rw [g2]
    rfl
  · refine ⟨C1, C3, C4, C5, by rw [← C2] at hsorted; exact hsorted, g1, g2, ?_⟩
    rw [Algo.mk.injEq]
    exact ⟨e1, rfl, e2, rfl, e3, rfl, rfl, e4⟩
  · refine ⟨hp0, ?_, ?_, ?_, ?_, ?_, ?_, ?_, ?_, ?_, ?_⟩
    · simp only; rw [C4.length_eq, ← S.lenN, e2]
    · simp only; rw [C4.length_eq, C3.length_eq, S.lenF]
    · simp only; rw [C4.length_eq, ← S.lenM, e3]
    · simp only; rw [C4.length_eq, C5.length_eq, S.lenS]
    · exact C5.nodup_iff.mpr S.nodup
    · simp only; rw [e1]; exact S.k
    · intro b x e he
      simp only at he ⊢
      rw [e1] at he ⊢
      exact S.bufs b x e he
    · intro p hp; exact S.pop p (C4.mem_iff.mp hp)
    · intro p hp
      simp only at hp
      rw [e2] at hp
      exact S.newPop p hp
    · simp only; rw [← hlen, S.best]

/-- A list has the pointwise value at 0 as its maximum when sorted. -/
theorem sorted_head {l : List ℚ} (h : l.Pairwise (· ≥ ·)) {v : ℚ} (h0 : l[0]? = some v) : ∀ x ∈ l, x ≤ v := by
  cases l with
  | nil => simp at h0
  | cons a l =>
    simp only [List.getElem?_cons_zero, Option.some.injEq] at h0
    subst h0
    intro x hx
    rcases List.mem_cons.mp hx with rfl | hx
    · exact le_rfl
    · exact (List.pairwise_cons.mp h).1 x hx

end Verif.Alg

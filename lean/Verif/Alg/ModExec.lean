import Verif.Alg.ModInv
import Verif.Alg.Exec

/-!
# Executions of the modified genetic algorithm

The theorems need the fitnesses of all members but the last `cutoff` to be positive before every step (`FrontPos`); with a fitness function that
is positive this is so in all executions.
-/

namespace Verif.Alg

open Verif.Fit

variable {Dt K : Type} {F : Fun Dt K} {ok : K → Prop} {Dom : NP → Prop} {N : Nat} {Repr : Dt → List NP → Prop}

/-- What the theorems about the modified genetic algorithm assume: a mutation of every base is made, `2 * cutoff ≤ size`. -/
structure MSetting (F : Fun Dt K) (ok : K → Prop) (Dom : NP → Prop) (N : Nat) (Repr : Dt → List NP → Prop) (srt : Sorter) (cutoff : Nat)
    (init : List (List NP)) (k : Nat) : Prop where
  laws : Laws F ok Dom N Repr
  sort : SortOK srt
  exponent : 1 ≤ k
  cutoff1 : 1 ≤ cutoff
  cutoff2 : 2 * cutoff ≤ init.length
  init : ∀ p ∈ init, p.length = N ∧ ∀ q ∈ p, Dom q

variable {srt : Sorter} {cutoff : Nat} {init : List (List NP)} {k : Nat}

/-- Executions in which `FrontPos` holds before every step, with mutators that record what they do. -/
abbrev PosExec (F : Fun Dt K) (srt : Sorter) (cutoff : Nat) (Dom : NP → Prop) (N : Nat) (init : List (List NP)) (k : Nat) : Nat → Algo Dt K → Prop :=
  ModExec F srt cutoff (MutOK Dom N) (FrontPos cutoff) init k

/-- `b` is the state of the modified algorithm at the start of a call of `calculateFitnesses`: in the constructor, or in a step. -/
def ModStart (F : Fun Dt K) (srt : Sorter) (cutoff : Nat) (Dom : NP → Prop) (N : Nat) (init : List (List NP)) (k : Nat) (b : Algo Dt K) : Prop :=
  simpleInit init k = some b ∨
    ∃ g a μ, PosExec F srt cutoff Dom N init k g a ∧ FrontPos cutoff a ∧ MutOK Dom N μ ∧ newGeneration μ cutoff (a.pop.length - cutoff) a = some b

theorem MSetting.exec (S : MSetting F ok Dom N Repr srt cutoff init k) {g : Nat} {a : Algo Dt K} (h : PosExec F srt cutoff Dom N init k g a) :
    MInv F ok Dom N Repr a ∧ a.pop.length = init.length ∧ a.gen = g := by
  have hc2 := S.cutoff2
  have hc1 := S.cutoff1
  induction h with
  | new h =>
    obtain ⟨h1, h2, h3, _⟩ := MInv.new S.laws S.sort S.exponent S.cutoff1 (by omega) S.init h
    exact ⟨h1, h2, h3⟩
  | step _ hq hμ hst ih =>
    obtain ⟨I, h1, h2⟩ := ih
    obtain ⟨I', h3, h4, _⟩ := I.step S.laws S.sort hμ hq S.cutoff1 (by omega) hst
    exact ⟨I', by omega, by omega⟩

/-- With positive fitnesses all executions are covered. -/
theorem MSetting.posExec (S : MSetting F ok Dom N Repr srt cutoff init k) (P : Positive F Repr) {g : Nat} {a : Algo Dt K}
    (h : ModExec F srt cutoff (MutOK Dom N) (fun _ => True) init k g a) : PosExec F srt cutoff Dom N init k g a ∧ FrontPos cutoff a := by
  have hc2 := S.cutoff2
  have hc1 := S.cutoff1
  induction h with
  | new h => exact ⟨.new h, (MInv.new S.laws S.sort S.exponent S.cutoff1 (by omega) S.init h).2.2.2 P.fresh⟩
  | step _ _ hμ hst ih =>
    obtain ⟨h, hF⟩ := ih
    obtain ⟨I, h1, _⟩ := S.exec h
    exact ⟨.step h hF hμ hst, (I.step S.laws S.sort hμ hF S.cutoff1 (by omega) hst).2.2.2.2.2 P.fresh⟩

/-- With initial members and mutated members that have positive fitnesses (`H`) all executions are covered.  `G` is what is known of members with
positive fitness. -/
theorem MSetting.spanExec (S : MSetting F ok Dom N Repr srt cutoff init k) {G H : List NP → Prop}
    (P : ∀ d ps v, Repr d ps → H ps → plain F d = some v → 0 < v) (Q : ∀ d ps v, Repr d ps → plain F d = some v → 0 < v → G ps)
    (hi : ∀ p ∈ init, H p) {g : Nat} {a : Algo Dt K}
    (h : ModExec F srt cutoff (fun μ => MutOK Dom N μ ∧ ∀ i q, G q → H (μ i q).1) (fun _ => True) init k g a) :
    PosExec F srt cutoff Dom N init k g a ∧ FrontPos cutoff a := by
  have hc2 := S.cutoff2
  have hc1 := S.cutoff1
  induction h with
  | new h =>
    refine ⟨.new h, (MInv.new S.laws S.sort S.exponent S.cutoff1 (by omega) S.init h).2.2.2 ?_⟩
    intro x p _ hp d v hr hv
    exact P d p v hr (hi p (List.mem_of_getElem? hp)) hv
  | step _ _ hμ hst ih =>
    obtain ⟨h, hF⟩ := ih
    obtain ⟨I, h1, _⟩ := S.exec h
    refine ⟨.step h hF hμ.1 hst, (I.step S.laws S.sort hμ.1 hF S.cutoff1 (by omega) hst).2.2.2.2.2 ?_⟩
    rintro x p hx ⟨hxc, q, hq, rfl⟩ d v hr hv
    refine P d _ v hr (hμ.2 x q ?_) hv
    have hm := Nat.mod_lt x hc1
    obtain ⟨w, hw, w0⟩ := hF (x % cutoff) (by omega)
    obtain ⟨q', v', e1, e2, d', _, _, _, e3, e4⟩ := I.evalAt hF (x % cutoff) (by omega)
    rw [hq] at e1
    cases e1
    rw [hw] at e2
    cases e2
    exact Q d' q w e3 e4 w0

theorem MSetting.phase (S : MSetting F ok Dom N Repr srt cutoff init k) {b : Algo Dt K} (h : ModStart F srt cutoff Dom N init k b) :
    0 < b.pop.length - cutoff ∧ b.pop.length = init.length ∧ ∃ T V, PhaseOK F ok (b.pop.length - cutoff) (ptsOf b) (mutsOf b) b.sys T V := by
  have hc2 := S.cutoff2
  have hc1 := S.cutoff1
  rcases h with h | ⟨g, a, μ, he, hF, hμ, hb⟩
  · obtain ⟨b', T, V, hb, hp, Sh, H, _⟩ := MInv.new_exists S.laws S.sort S.exponent S.cutoff1 (by omega) S.init
    rw [h] at hb
    cases hb
    exact ⟨by rw [hp]; omega, congrArg _ hp, T, V, H⟩
  · obtain ⟨I, h1, _⟩ := S.exec he
    obtain ⟨b', T, V, hb', Gd, G⟩ := I.gen S.laws hμ hF S.cutoff1 (by omega)
    rw [hb] at hb'
    cases hb'
    exact ⟨by rw [Gd.len, h1]; omega, by rw [Gd.len, h1], T, V, G.phase⟩

/-- The constructor completes under some schedule. -/
theorem MSetting.new_exists (S : MSetting F ok Dom N Repr srt cutoff init k) : ∃ l, ∃ a : Algo Dt K, NewMod F srt cutoff init k l a := by
  have hc2 := S.cutoff2
  have hc1 := S.cutoff1
  obtain ⟨b, T, V, hb, hp, Sh, H, hall⟩ := MInv.new_exists S.laws S.sort S.exponent S.cutoff1 (by omega) S.init
  obtain ⟨l, q, h, hf⟩ := phase_exists H (by rw [hp]; omega)
  obtain ⟨st, d, h1, h2, _⟩ := hall l q h hf
  exact ⟨l, d, b, q, st, hb, h, hf, h1, h2⟩

/-- Every step completes under some schedule. -/
theorem MSetting.step_exists (S : MSetting F ok Dom N Repr srt cutoff init k) {g : Nat} {a : Algo Dt K} {μ : Mutator}
    (h : PosExec F srt cutoff Dom N init k g a) (hF : FrontPos cutoff a) (hμ : MutOK Dom N μ) : ∃ l a', ModStep F srt cutoff μ l a a' := by
  have hc2 := S.cutoff2
  have hc1 := S.cutoff1
  obtain ⟨I, h1, _⟩ := S.exec h
  obtain ⟨b, T, V, hb, Gd, G⟩ := I.gen S.laws hμ hF S.cutoff1 (by omega)
  obtain ⟨l, q, hrun, hf⟩ := phase_exists G.phase (by rw [Gd.len, h1]; omega)
  obtain ⟨ar, st, c, E⟩ := G.eval S.laws S.cutoff1 hrun hf
  obtain ⟨hM, _⟩ := E.members G S.cutoff1
  obtain ⟨d, hd, _⟩ := mod_update S.sort E.inv.shape hM
  exact ⟨l, _, b, c, d, hb, ⟨q, st, hrun, hf, E.fold, E.comb⟩, hd, rfl⟩

/-- With positive fitnesses executions of every length exist. -/
theorem MSetting.exec_exists (S : MSetting F ok Dom N Repr srt cutoff init k) (P : Positive F Repr) {μ : Mutator} (hμ : MutOK Dom N μ) :
    ∀ g, ∃ a, ModExec F srt cutoff (MutOK Dom N) (fun _ => True) init k g a := by
  intro g
  induction g with
  | zero => obtain ⟨l, a, h⟩ := S.new_exists; exact ⟨a, .new h⟩
  | succ g ih =>
    obtain ⟨a, h⟩ := ih
    obtain ⟨h1, h2⟩ := S.posExec P h
    obtain ⟨l, a', h'⟩ := S.step_exists h1 h2 hμ
    exact ⟨a', .step h trivial hμ h'⟩

/-- The evaluation in a step from a reached state. -/
theorem MSetting.evalOK (S : MSetting F ok Dom N Repr srt cutoff init k) {g : Nat} {a b : Algo Dt K} {μ : Mutator}
    (h : PosExec F srt cutoff Dom N init k g a) (hF : FrontPos cutoff a) (hμ : MutOK Dom N μ)
    (hb : newGeneration μ cutoff (a.pop.length - cutoff) a = some b) :
    ∃ T V, GenOK F ok Dom N Repr cutoff b T V ∧
      ∀ l c, ModEval F cutoff l b c → ∃ q ar st, EvalOK F ok Dom N Repr cutoff b T V q ar st c := by
  have hc2 := S.cutoff2
  have hc1 := S.cutoff1
  obtain ⟨I, h1, _⟩ := S.exec h
  obtain ⟨b', T, V, hb', Gd, G⟩ := I.gen S.laws hμ hF S.cutoff1 (by omega)
  rw [hb] at hb'
  cases hb'
  refine ⟨T, V, G, ?_⟩
  rintro l c ⟨q, st', h2, h3, h4, h5⟩
  obtain ⟨ar, st, c', E⟩ := G.eval S.laws S.cutoff1 h2 h3
  have := E.fold
  rw [h4] at this
  cases this
  have := E.comb
  rw [h5] at this
  cases this
  exact ⟨q, ar, st', E⟩

end Verif.Alg

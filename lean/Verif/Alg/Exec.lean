import Verif.Alg.Sim
import Verif.Alg.Race
import Verif.Alg.TriFun

/-!
# Executions exist, and what can be said during an evaluation
-/

namespace Verif.Alg

open Verif.Fit Verif.Float Verif.Raster Verif.Tri Verif.Spec
open Verif.Incr hiding trunc step run Entry

/-! ### A sort -/

theorem foldlM_shift (x : ℚ) : ∀ (sw : List (Nat × Nat)) (l l' : List ℚ), sw.foldlM (fun l y => swapList l y.1 y.2) l = some l' →
    (sw.map fun y => (y.1 + 1, y.2 + 1)).foldlM (fun l y => swapList l y.1 y.2) (x :: l) = some (x :: l') := by
  intro sw
  induction sw with
  | nil => intro l l' h; simpa using h
  | cons y sw ih =>
    intro l l' h
    rw [List.foldlM_cons] at h
    cases hs : swapList l y.1 y.2 with
    | none => rw [hs] at h; cases h
    | some l1 =>
      rw [hs] at h
      rw [List.map_cons, List.foldlM_cons]
      have : swapList (x :: l) (y.1 + 1) (y.2 + 1) = some (x :: l1) := by
        unfold swapList at hs ⊢
        simp only [List.getElem?_cons_succ, List.set_cons_succ]
        cases h1 : l[y.1]? with
        | none => rw [h1] at hs; cases hs
        | some a =>
          cases h2 : l[y.2]? with
          | none => rw [h1, h2] at hs; cases hs
          | some b =>
            rw [h1, h2] at hs
            simp only [Option.bind_eq_bind, Option.bind_some, Option.some.injEq] at hs ⊢
            rw [hs]
      rw [this]
      exact ih _ _ h

/-- Every list can be sorted by swaps. -/
theorem sort_exists : ∀ (n : Nat) (l : List ℚ), l.length = n →
    ∃ (sw : List (Nat × Nat)) (l' : List ℚ), sw.foldlM (fun l y => swapList l y.1 y.2) l = some l' ∧ l'.Pairwise (· ≥ ·) ∧ l'.Perm l := by
  intro n
  induction n with
  | zero =>
    intro l hl
    have := List.length_eq_zero_iff.mp hl
    subst this
    exact ⟨[], [], rfl, List.Pairwise.nil, List.Perm.refl _⟩
  | succ n ih =>
    intro l hl
    -- the position of a greatest element
    obtain ⟨m, hm, hmax⟩ : ∃ m, ∃ h : m < l.length, ∀ x ∈ l, x ≤ l[m] := by
      have hne : l ≠ [] := by intro e; rw [e] at hl; cases hl
      obtain ⟨y, hy, hmax⟩ : ∃ y ∈ l, ∀ x ∈ l, x ≤ y := by
        clear hl
        induction l with
        | nil => exact absurd rfl hne
        | cons a t iht =>
          by_cases ht : t = []
          · subst ht; exact ⟨a, by simp, by simp⟩
          · obtain ⟨y, hy, hmax⟩ := iht ht
            by_cases hay : a ≤ y
            · exact ⟨y, List.mem_cons_of_mem _ hy, by intro x hx; rcases List.mem_cons.mp hx with rfl | h; exacts [hay, hmax x h]⟩
            · exact ⟨a, by simp, by intro x hx; rcases List.mem_cons.mp hx with rfl | h; exacts [le_rfl, (hmax x h).trans (not_le.mp hay).le]⟩
      obtain ⟨m, hm, e⟩ := List.getElem_of_mem hy
      exact ⟨m, hm, fun x hx => by rw [e]; exact hmax x hx⟩
    cases l with
    | nil => cases hl
    | cons a t =>
      have hperm : ∃ t', swapList (a :: t) 0 m = some ((a :: t)[m] :: t') ∧ ((a :: t)[m] :: t').Perm (a :: t) := by
        cases m with
        | zero => exact ⟨t, by simp [swapList], List.Perm.refl _⟩
        | succ m =>
          have hm' : m < t.length := by simpa using hm
          refine ⟨t.set m a, by simp [swapList, hm'], ?_⟩
          have := List.set_set_perm (as := (a :: t)) (i := 0) (j := m + 1) (by simp) hm
          simpa using this
      obtain ⟨t', h1, h2⟩ := hperm
      have hlt : t'.length = n := by have := h2.length_eq; simp at this hl; omega
      obtain ⟨sw, l', h3, h4, h5⟩ := ih t' hlt
      refine ⟨(0, m) :: sw.map fun y => (y.1 + 1, y.2 + 1), (a :: t)[m] :: l', ?_, ?_, ?_⟩
      · rw [List.foldlM_cons]
        simp only [h1, Option.bind_eq_bind, Option.bind_some]
        exact foldlM_shift _ sw t' l' h3
      · refine List.Pairwise.cons ?_ h4
        intro x hx
        exact hmax x (h2.mem_iff.mp (List.mem_cons_of_mem _ (h5.mem_iff.mp hx)))
      · exact (h5.cons _).trans h2

/-- Some sort that meets the contract. -/
noncomputable def someSorter : Sorter := fun l => (sort_exists l.length l rfl).choose

theorem someSorter_ok : SortOK someSorter := by
  intro l
  obtain ⟨l', h1, h2, _⟩ := (sort_exists l.length l rfl).choose_spec
  exact ⟨l', h1, h2⟩

/-! ### Executions -/

variable {Dt K : Type} {F : Fun Dt K} {ok : K → Prop} {Dom : NP → Prop} {N : Nat} {Repr : Dt → List NP → Prop}

/-- What the theorems about the simple algorithm assume. -/
structure Setting (F : Fun Dt K) (ok : K → Prop) (Dom : NP → Prop) (N : Nat) (Repr : Dt → List NP → Prop) (srt : Sorter) (cutoff : Nat)
    (init : List (List NP)) (k : Nat) : Prop where
  laws : Laws F ok Dom N Repr
  sort : SortOK srt
  exponent : 1 ≤ k
  cutoff1 : 1 ≤ cutoff
  cutoff2 : cutoff ≤ init.length
  init : ∀ p ∈ init, p.length = N ∧ ∀ q ∈ p, Dom q

/-- `b` is the state of the simple algorithm at the start of a call of `calculateFitnesses`: in the constructor, or in a step. -/
def EvalStart (F : Fun Dt K) (srt : Sorter) (cutoff : Nat) (M : Mutator → Prop) (init : List (List NP)) (k : Nat) (b : Algo Dt K) : Prop :=
  simpleInit init k = some b ∨
    ∃ g a μ, SimpleExec F srt cutoff M init k g a ∧ M μ ∧ newGeneration μ cutoff a.pop.length a = some b

variable {srt : Sorter} {cutoff : Nat} {init : List (List NP)} {k : Nat}

theorem Setting.exec (S : Setting F ok Dom N Repr srt cutoff init k) {g : Nat} {a : Algo Dt K}
    (h : SimpleExec F srt cutoff (MutOK Dom N) init k g a) : SInv F ok Dom N Repr a ∧ a.pop.length = init.length ∧ a.gen = g :=
  SInv.exec S.laws S.sort S.exponent S.cutoff1 S.cutoff2 S.init h

theorem Setting.phase (S : Setting F ok Dom N Repr srt cutoff init k) {b : Algo Dt K} (h : EvalStart F srt cutoff (MutOK Dom N) init k b) :
    Shape F ok Dom N b ∧ b.pop.length = init.length ∧ ∃ T V, PhaseOK F ok b.pop.length (ptsOf b) (mutsOf b) b.sys T V ∧
      ∀ i < b.pop.length, Repr (T i) (ptsOf b i) := by
  rcases h with h | ⟨g, a, μ, he, hμ, hb⟩
  · obtain ⟨b', T, V, hb, hp, hg, _, _, _, Sh, H, hr⟩ := init_phase S.laws S.exponent (S.cutoff1.trans S.cutoff2) le_rfl S.init
    rw [h] at hb
    cases hb
    rw [← hp] at H hr
    exact ⟨Sh, congrArg _ hp, T, V, H, hr⟩
  · obtain ⟨I, h1, h2⟩ := S.exec he
    obtain ⟨b', T, V, hb', G, Sb, H, hr, _⟩ := I.gen S.laws hμ S.cutoff1 (by rw [h1]; exact S.cutoff2)
    rw [hb] at hb'
    cases hb'
    exact ⟨Sb, by rw [G.len, h1], T, V, H, hr⟩

/-- The constructor completes under some schedule. -/
theorem Setting.new_exists (S : Setting F ok Dom N Repr srt cutoff init k) : ∃ l, ∃ a : Algo Dt K, NewSimple F srt init k l a := by
  obtain ⟨b, T, V, hb, hp, hg, _, _, _, Sh, H, hr⟩ := init_phase S.laws S.exponent (S.cutoff1.trans S.cutoff2) le_rfl S.init
  rw [← hp] at H hr
  obtain ⟨l, q, h, hf⟩ := phase_exists H Sh.pos
  obtain ⟨c, hc, _⟩ := simple_finish S.sort Sh H hr h hf
  exact ⟨l, c, b, q, hb, h, hf, hc⟩

/-- Every step completes under some schedule. -/
theorem Setting.step_exists (S : Setting F ok Dom N Repr srt cutoff init k) {g : Nat} {a : Algo Dt K} {μ : Mutator}
    (h : SimpleExec F srt cutoff (MutOK Dom N) init k g a) (hμ : MutOK Dom N μ) : ∃ l a', SimpleStep F srt cutoff μ l a a' := by
  obtain ⟨I, h1, _⟩ := S.exec h
  obtain ⟨b, T, V, hb, G, Sb, H, hr, _⟩ := I.gen S.laws hμ S.cutoff1 (by rw [h1]; exact S.cutoff2)
  obtain ⟨l, q, hrun, hf⟩ := phase_exists H Sb.pos
  obtain ⟨c, hc, _⟩ := simple_finish S.sort Sb H hr hrun hf
  exact ⟨l, _, b, q, c, hb, hrun, hf, hc, rfl⟩

/-- Executions of every length exist. -/
theorem Setting.exec_exists (S : Setting F ok Dom N Repr srt cutoff init k) {μ : Mutator} (hμ : MutOK Dom N μ) :
    ∀ g, ∃ a, SimpleExec F srt cutoff (MutOK Dom N) init k g a := by
  intro g
  induction g with
  | zero => obtain ⟨l, a, h⟩ := S.new_exists; exact ⟨a, .new h⟩
  | succ g ih =>
    obtain ⟨a, h⟩ := ih
    obtain ⟨l, a', h'⟩ := S.step_exists h hμ
    exact ⟨a', .step h hμ h'⟩

/-- An execution with given mutators, one per step, and any schedules. -/
inductive SimpleTrace (F : Fun Dt K) (srt : Sorter) (cutoff : Nat) (init : List (List NP)) (k : Nat) : List Mutator → Algo Dt K → Prop where
  | new {l a} : NewSimple F srt init k l a → SimpleTrace F srt cutoff init k [] a
  | step {μs μ l a a'} : SimpleTrace F srt cutoff init k μs a → SimpleStep F srt cutoff μ l a a' → SimpleTrace F srt cutoff init k (μs ++ [μ]) a'

theorem SimpleTrace.exec {M : Mutator → Prop} {μs : List Mutator} {a : Algo Dt K} (h : SimpleTrace F srt cutoff init k μs a) (hM : ∀ μ ∈ μs, M μ) :
    SimpleExec F srt cutoff M init k μs.length a := by
  induction h with
  | new h => exact .new h
  | step _ hs ih =>
    rw [List.length_append]
    exact .step (ih fun μ hμ => hM μ (List.mem_append_left _ hμ)) (hM _ (by simp)) hs

/-- Two executions with the same mutators agree up to cache contents. -/
theorem Setting.trace_sim (S : Setting F ok Dom N Repr srt cutoff init k) {μs : List Mutator} (hM : ∀ μ ∈ μs, MutOK Dom N μ) {a b : Algo Dt K}
    (h : SimpleTrace F srt cutoff init k μs a) (h' : SimpleTrace F srt cutoff init k μs b) : Sim a b := by
  induction h generalizing b with
  | new h =>
    generalize e : ([] : List Mutator) = ν at h'
    cases h' with
    | new h' => exact Sim.new S.laws S.exponent (S.cutoff1.trans S.cutoff2) S.init h h'
    | step _ _ => simp at e
  | @step μs μ l a a' ht hs ih =>
    generalize e : μs ++ [μ] = ν at h'
    cases h' with
    | new _ => simp at e
    | @step μs' μ' l' c _ ht' hs' =>
      obtain ⟨e1, e2⟩ := List.append_inj' e rfl
      subst e1
      simp only [List.cons.injEq, and_true] at e2
      subst e2
      have hM' : ∀ ν ∈ μs, MutOK Dom N ν := fun ν hν => hM ν (List.mem_append_left _ hν)
      obtain ⟨I, hI, _⟩ := S.exec (ht.exec hM')
      obtain ⟨J, _, _⟩ := S.exec (ht'.exec hM')
      exact (ih hM' ht').step S.laws (hM μ (by simp)) I J S.cutoff1 (by rw [hI]; exact S.cutoff2) hs hs'

/-! ### The triangulation of a member -/

theorem hasPoint_strip (g : Geo) (d : D) (p : Pt) : hasPoint g (strip d) p = hasPoint g d p := by
  have hpl : ∀ (x : D) (ks : List Nat), hasPointLoop (strip x) p ks = hasPointLoop x p ks := by
    intro x ks
    induction ks with
    | nil => rfl
    | cons k ks ih => simp only [hasPointLoop, ih]; rfl
  unfold hasPoint
  simp only [hpl]
  rfl

end Verif.Alg

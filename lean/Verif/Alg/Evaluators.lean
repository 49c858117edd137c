import Verif.Alg.Race
import Verif.Alg.Simple
import Verif.Alg.Play

/-!
# The generic evaluators `one` and `many`, and the simple algorithm over any evaluator

`simple` and `modifiedGenetic` call their evaluator through an interface of five methods.  `Ev` is that interface; the definitions
below are those of `Model.lean` and `Algo.lean` with the calls of the parallel evaluator replaced by calls through it.
-/

namespace Verif.Alg

open Verif.Fit

variable {Dt K : Type}

/-- evaluators.go 10-26 `Evaluator`, without `Get`, which is `slots[i]`. -/
structure Ev (Dt K : Type) where
  update : Sys Dt K → Nat → Option (Sys Dt K)
  prepare : Sys Dt K → Sys Dt K
  setBase : Sys Dt K → Nat → Nat → Option (Sys Dt K)
  swap : Sys Dt K → Nat → Nat → Option (Sys Dt K)

/-- parallel.go 21-42. -/
def Ev.parallel : Ev Dt K := ⟨Alg.update, Alg.prepare, Alg.setBase, Alg.swap⟩

/-- evaluators.go 33-43 (`one`) and 58-68 (`many`): the four methods do nothing. -/
def Ev.generic : Ev Dt K := ⟨fun s _ => some s, fun s => s, fun s _ _ => some s, fun s _ _ => some s⟩

/-- evaluators.go 76-84 `NewMany` with n calls of triangles.go 199-209 `NewTrianglesImageFunction`; the two arrays of the parallel
evaluator are not there, which is no difference as no function is ever given one. -/
def newMany (n : Nat) : Sys Dt K := ⟨fun _ => ⟨none, none, .fresh, []⟩, List.range n, fun _ _ => none, false, 0⟩

/-- evaluators.go 50-52 `NewOne` and 45-48 `Get`: every member has the same function. -/
def newOne (n : Nat) : Sys Dt K := ⟨fun _ => ⟨none, none, .fresh, []⟩, List.replicate n 0, fun _ _ => none, false, 0⟩

section
variable (E : Ev Dt K) (F : Fun Dt K)

/-- One move of `calculateFitnesses` (simple.go 54-88) over any evaluator: see `move`. -/
def evMove (n : Nat) (pts : Nat → List NP) (muts : Nat → List Mut) (p : Ph Dt K) : Who → Option (Ph Dt K)
  | .main =>
    match p.pc with
    | .sub k =>
      if k < n then do
        let id ← p.sys.slots[k]?
        some { p with pc := .sub (k + 1), tasks := setTask p.tasks k (.ready id) }
      else some { p with pc := .recv 0, sys := E.prepare p.sys }
    | .recv m =>
      match p.chan with
      | [] => none
      | (i, v) :: rest => do
        let s ← E.update p.sys i
        let id ← p.sys.slots[i]?
        some { p with sys := s, pc := .recv (m + 1), tasks := setTask p.tasks i (.received id), chan := rest, arr := p.arr ++ [(i, v)] }
  | .work i => move F n pts muts p (.work i)

/-- A schedule, as `Run`. -/
inductive EvRun (n : Nat) (pts : Nat → List NP) (muts : Nat → List Mut) : Ph Dt K → List Who → Ph Dt K → Prop where
  | nil (p) : EvRun n pts muts p [] p
  | snoc {p q r : Ph Dt K} {l : List Who} (w : Who) : EvRun n pts muts p l q → Enabled n q w → evMove E F n pts muts q w = some r →
      EvRun n pts muts p (l ++ [w]) r

/-- simple.go 109-116: see `mutStep`. -/
def evMutStep (μ : Mutator) (pop : List (List NP)) (st : List (List NP) × List (List Mut) × Sys Dt K) (i j : Nat) :
    Option (List (List NP) × List (List Mut) × Sys Dt K) := do
  let p ← pop[j]?
  let q ← st.1[i]?
  let _ ← st.2.1[i]?
  let r ← setPts q p
  let s ← E.setBase st.2.2 i j
  some (st.1.set i (μ i r).1, st.2.1.set i (μ i r).2, s)

/-- simple.go 107-118: see `mutLoop`. -/
def evMutLoop (μ : Mutator) (pop : List (List NP)) (cutoff : Nat) : Nat → Nat → Nat → List (List NP) × List (List Mut) × Sys Dt K →
    Option (List (List NP) × List (List Mut) × Sys Dt K)
  | 0, _, _, st => some st
  | m + 1, i, j, st =>
    if cutoff = 0 then none
    else do
      let st ← evMutStep E μ pop st i (if j < cutoff then j else 0)
      evMutLoop μ pop cutoff m (i + 1) ((if j < cutoff then j else 0) + 1) st

/-- simple.go 99-121 `newGeneration`: see `newGeneration`. -/
def evNewGeneration (μ : Mutator) (cutoff lim : Nat) (a : Algo Dt K) : Option (Algo Dt K) := do
  let e ← (List.range cutoff).foldlM (eliteStep a.pop) (a.newPop, a.muts)
  let st ← evMutLoop E μ a.pop cutoff (lim - cutoff) cutoff 0 (e.1, e.2, a.sys)
  some { a with pop := st.1, newPop := a.pop, muts := st.2.1, sys := st.2.2 }

/-- simple.go 139-143 `Swap`. -/
def evSwap (a : Algo Dt K) (x : Nat × Nat) : Option (Algo Dt K) := do
  let f ← swapList a.fit x.1 x.2
  let p ← swapList a.pop x.1 x.2
  let s ← E.swap a.sys x.1 x.2
  some { a with fit := f, pop := p, sys := s }

/-- simple.go 91-96 `updateFitnesses`. -/
def evUpdateFitnesses (srt : Sorter) (a : Algo Dt K) : Option (Algo Dt K) := do
  let a ← (srt a.fit).foldlM (evSwap E) a
  let p ← a.pop[0]?
  let b ← setPts a.best p
  let v ← a.fit[0]?
  some { a with best := b, bestFit := v }

/-- simple.go 38-51 `Step`. -/
def EvStep (srt : Sorter) (cutoff : Nat) (μ : Mutator) (l : List Who) (a a' : Algo Dt K) : Prop :=
  ∃ a1 q a2, evNewGeneration E μ cutoff a.pop.length a = some a1 ∧
    EvRun E F a1.pop.length (ptsOf a1) (mutsOf a1) (Ph.start a1.sys) l q ∧ q.Finished a1.pop.length ∧
    evUpdateFitnesses E srt { a1 with sys := q.sys, fit := collect a1.fit q.arr } = some a2 ∧
    a' = { a2 with gen := a2.gen + 1 }

/-- simple.go 146-169: the fields before the first evaluation; `s` is what `newEvaluators` returns. -/
def evInit (init : List (List NP)) (s : Sys Dt K) : Option (Algo Dt K) := do
  let b ← init[0]?
  some ⟨s, init, init, List.replicate init.length 0, List.replicate init.length [], b, 0, 0⟩

/-- simple.go 146-173 `NewSimple`. -/
def EvNew (srt : Sorter) (init : List (List NP)) (s : Sys Dt K) (l : List Who) (a : Algo Dt K) : Prop :=
  ∃ a1 q, evInit init s = some a1 ∧
    EvRun E F a1.pop.length (ptsOf a1) (mutsOf a1) (Ph.start a1.sys) l q ∧ q.Finished a1.pop.length ∧
    evUpdateFitnesses E srt { a1 with sys := q.sys, fit := collect a1.fit q.arr } = some a

/-- Construction, then steps with any mutator and schedule. -/
inductive EvExec (srt : Sorter) (cutoff : Nat) (M : Mutator → Prop) (init : List (List NP)) (s : Sys Dt K) : Nat → Algo Dt K → Prop where
  | new {l a} : EvNew E F srt init s l a → EvExec srt cutoff M init s 0 a
  | step {g μ l a a'} : EvExec srt cutoff M init s g a → M μ → EvStep E F srt cutoff μ l a a' → EvExec srt cutoff M init s (g + 1) a'

end

section
variable {F : Fun Dt K}

/-! ### With the parallel evaluator this is the model of `Algo.lean` -/

theorem evMove_parallel (n : Nat) (pts : Nat → List NP) (muts : Nat → List Mut) (p : Ph Dt K) (w : Who) :
    evMove Ev.parallel F n pts muts p w = move F n pts muts p w := by
  cases w <;> rfl

theorem evMutLoop_parallel {μ : Mutator} {pop : List (List NP)} {cutoff : Nat} : ∀ (m i j : Nat) (st : List (List NP) × List (List Mut) × Sys Dt K),
    evMutLoop Ev.parallel μ pop cutoff m i j st = mutLoop μ pop cutoff m i j st := by
  intro m
  induction m with
  | zero => intros; rfl
  | succ m ih =>
    intro i j st
    unfold evMutLoop mutLoop
    simp only [ih]
    rfl

theorem evRun_parallel {n : Nat} {pts : Nat → List NP} {muts : Nat → List Mut} {p q : Ph Dt K} {l : List Who} :
    EvRun Ev.parallel F n pts muts p l q ↔ Run F n pts muts p l q := by
  constructor
  · intro h
    induction h with
    | nil => exact .nil _
    | snoc w _ he hm ih => exact .snoc w ih he (by rw [← evMove_parallel]; exact hm)
  · intro h
    induction h with
    | nil => exact .nil _
    | snoc w _ he hm ih => exact .snoc w ih he (by rw [evMove_parallel]; exact hm)

theorem evStep_parallel {srt : Sorter} {cutoff : Nat} {μ : Mutator} {l : List Who} {a a' : Algo Dt K} :
    EvStep Ev.parallel F srt cutoff μ l a a' ↔ SimpleStep F srt cutoff μ l a a' := by
  unfold EvStep SimpleStep
  have e : ∀ lim, evNewGeneration Ev.parallel μ cutoff lim a = newGeneration μ cutoff lim a := by
    intro lim
    unfold evNewGeneration newGeneration
    simp only [evMutLoop_parallel]
  simp only [e, evRun_parallel]
  rfl

theorem evExec_parallel {srt : Sorter} {cutoff : Nat} {M : Mutator → Prop} {init : List (List NP)} {k g : Nat} {a : Algo Dt K} :
    EvExec Ev.parallel F srt cutoff M init (newParallel init.length k) g a ↔ SimpleExec F srt cutoff M init k g a := by
  constructor
  · intro h
    induction h with
    | new h =>
      obtain ⟨a1, q, h1, h2, h3, h4⟩ := h
      exact .new ⟨a1, q, h1, evRun_parallel.mp h2, h3, h4⟩
    | step _ hμ hs ih => exact .step ih hμ (evStep_parallel.mp hs)
  · intro h
    induction h with
    | new h =>
      obtain ⟨a1, q, h1, h2, h3, h4⟩ := h
      exact .new ⟨a1, q, h1, evRun_parallel.mpr h2, h3, h4⟩
    | step _ hμ hs ih => exact .step ih hμ (evStep_parallel.mpr hs)

/-! ### The evaluation of a generation with `many` -/

variable {ok : K → Prop} {n : Nat} {pts : Nat → List NP} {muts : Nat → List Mut} {T : Nat → Dt} {V : Nat → ℚ}

/-- A function before an evaluation: never used, or with the triangulation `d` of its first use and its own valid entries. -/
def Held (F : Fun Dt K) (ok : K → Prop) (pts : List NP) (d : Dt) (fn : Fn Dt K) : Prop :=
  (fn.tri = none ∧ fn.cache = .fresh ∧ (F.new.bind fun d0 => insAll F d0 pts) = some d) ∨
  (fn.tri = some d ∧ fn.base = none ∧ fn.cache = .own ∧ ∀ e ∈ fn.next, Valid F ok e)

/-- A function after an evaluation. -/
def Kept (F : Fun Dt K) (ok : K → Prop) (d : Dt) (fn : Fn Dt K) : Prop :=
  fn.tri = some d ∧ fn.base = none ∧ fn.cache = .own ∧ ∀ e ∈ fn.next, Valid F ok e

/-- The invariant of one task. -/
def ManyTask (F : Fun Dt K) (ok : K → Prop) (pts : Nat → List NP) (T : Nat → Dt) (V : Nat → ℚ) (p : Ph Dt K) (i : Nat) : Prop :=
  match p.tasks i with
  | .idle => Held F ok (pts i) (T i) (p.sys.fns i)
  | .ready id => id = i ∧ Held F ok (pts i) (T i) (p.sys.fns i)
  | .loop id r old todo acc => id = i ∧ (r = .fresh ∨ r = .own ∧ ∀ e ∈ old, Valid F ok e) ∧
      (p.sys.fns i).tri = some (T i) ∧ (p.sys.fns i).base = none ∧ (∀ e ∈ (p.sys.fns i).next, Valid F ok e) ∧
      ∃ ks, F.keys (T i) = ks ++ todo ∧ vals F ks = some acc
  | .done id v => id = i ∧ Kept F ok (T i) (p.sys.fns i) ∧ v = V i
  | .sent id => id = i ∧ Kept F ok (T i) (p.sys.fns i)
  | .received id => id = i ∧ Kept F ok (T i) (p.sys.fns i)

/-- The invariant of `calculateFitnesses` with `many`. -/
structure ManyInv (F : Fun Dt K) (ok : K → Prop) (n : Nat) (pts : Nat → List NP) (T : Nat → Dt) (V : Nat → ℚ) (p : Ph Dt K) (ch ar : List Nat) : Prop where
  slots : p.sys.slots = List.range n
  task : ∀ i < n, ManyTask F ok pts T V p i
  out : ∀ i, n ≤ i → p.tasks i = .idle
  chan : p.chan = ch.map fun i => (i, V i)
  arr : p.arr = ar.map fun i => (i, V i)
  arN : ar.Nodup
  chN : ch.Nodup
  chT : ∀ i ∈ ch, ∃ id, p.tasks i = .sent id
  arT : ∀ i ∈ ar, ∃ id, p.tasks i = .received id
  recv : ∀ m, p.pc = .recv m → ar.length = m
  sub : ∀ k, p.pc = .sub k → ar = [] ∧ ∀ i, k ≤ i → p.tasks i = .idle

/-- What is needed of the first evaluations. -/
structure ManyOK (F : Fun Dt K) (ok : K → Prop) (n : Nat) (T : Nat → Dt) (V : Nat → ℚ) : Prop where
  same : SameOK F ok
  keys : ∀ i < n, ∀ key ∈ F.keys (T i), ok key
  val : ∀ i < n, plain F (T i) = some (V i)

variable {p q : Ph Dt K} {ch ar : List Nat}

theorem ManyTask.frame {i j : Nat} (hij : j ≠ i) {fn : Fn Dt K} {t : Task K} (h : ManyTask F ok pts T V p j) :
    ManyTask F ok pts T V { p with sys := setFn p.sys i fn, tasks := setTask p.tasks i t } j := by
  have e1 : (setFn p.sys i fn).fns j = p.sys.fns j := by simp [setFn, hij]
  have e2 : setTask p.tasks i t j = p.tasks j := by simp [setTask, hij]
  unfold ManyTask at h ⊢
  simp only [e1, e2]
  exact h

theorem ManyTask.frame' {i j : Nat} (hij : j ≠ i) {t : Task K} {pc : PC} {c c' : List (Nat × ℚ)} (h : ManyTask F ok pts T V p j) :
    ManyTask F ok pts T V ⟨p.sys, pc, setTask p.tasks i t, c, c'⟩ j := by
  have e2 : setTask p.tasks i t j = p.tasks j := by simp [setTask, hij]
  unfold ManyTask at h ⊢
  simp only [e2]
  exact h

/-- A worker's step that is not a send. -/
theorem ManyInv.worker (I : ManyInv F ok n pts T V p ch ar) {i : Nat} (hi : i < n) {fn : Fn Dt K} {t : Task K}
    (h0 : p.tasks i ≠ .idle) (h1 : ∀ id, p.tasks i ≠ .sent id) (h2 : ∀ id, p.tasks i ≠ .received id)
    (ht : ManyTask F ok pts T V { p with sys := setFn p.sys i fn, tasks := setTask p.tasks i t } i) :
    ManyInv F ok n pts T V { p with sys := setFn p.sys i fn, tasks := setTask p.tasks i t } ch ar := by
  have ne : ∀ j, (∃ id, p.tasks j = .sent id) ∨ (∃ id, p.tasks j = .received id) → j ≠ i := by
    rintro j (⟨id, h⟩ | ⟨id, h⟩) rfl
    · exact h1 id h
    · exact h2 id h
  refine ⟨I.slots, ?_, ?_, I.chan, I.arr, I.arN, I.chN, ?_, ?_, I.recv, ?_⟩
  · intro j hj
    by_cases hji : j = i
    · subst hji; exact ht
    · exact (I.task j hj).frame hji
  · intro j hj
    simp only [setTask]
    rw [if_neg (by omega)]
    exact I.out j hj
  · intro j hj
    have := ne j (Or.inl (I.chT j hj))
    simpa [setTask, this] using I.chT j hj
  · intro j hj
    have := ne j (Or.inr (I.arT j hj))
    simpa [setTask, this] using I.arT j hj
  · intro k hk
    obtain ⟨a, b⟩ := I.sub k hk
    refine ⟨a, fun j hj => ?_⟩
    have : j ≠ i := fun e => h0 (e ▸ b j hj)
    simpa [setTask, this] using b j hj

/-- Every move keeps the invariant. -/
theorem ManyInv.move (H : ManyOK F ok n T V) (I : ManyInv F ok n pts T V p ch ar) {w : Who} (hm : evMove Ev.generic F n pts muts p w = some q) :
    ∃ ch' ar', ManyInv F ok n pts T V q ch' ar' := by
  cases w with
  | work i =>
    unfold evMove Alg.move at hm
    simp only at hm
    have hi : p.tasks i ≠ .idle → i < n := by
      intro h
      by_contra hc
      exact h (I.out i (by omega))
    cases ht : p.tasks i with
    | idle => rw [ht] at hm; cases hm
    | sent id => rw [ht] at hm; cases hm
    | received id => rw [ht] at hm; cases hm
    | ready id =>
      have hi := hi (by rw [ht]; simp)
      have tI := I.task i hi
      unfold ManyTask at tI
      rw [ht] at tI hm
      obtain ⟨rfl, hf⟩ := tI
      simp only [Option.bind_eq_bind, Option.bind_eq_some_iff] at hm
      obtain ⟨d, hd, hm⟩ := hm
      cases hm
      refine ⟨ch, ar, I.worker hi (by rw [ht]; simp) (by rw [ht]; simp) (by rw [ht]; simp) ?_⟩
      unfold ManyTask
      simp only [setTask_self, setFn_self, true_and]
      unfold setup at hd
      rcases hf with ⟨f1, f2, f3⟩ | ⟨f1, f2, f3, f4⟩
      · rw [f1] at hd
        simp only at hd
        have : d = T id := by
          have h : some d = some (T id) := by rw [← hd, ← f3]; rfl
          exact Option.some.inj h
        subst this
        exact ⟨Or.inl f2, rfl, by simp, [], by simp, rfl⟩
      · rw [f1, f2] at hd
        simp only [Option.some.injEq] at hd
        subst hd
        exact ⟨Or.inr ⟨f3, f4⟩, rfl, by simp, [], by simp, rfl⟩
    | loop id r old todo acc =>
      have hi := hi (by rw [ht]; simp)
      have tI := I.task i hi
      unfold ManyTask at tI
      rw [ht] at tI hm
      obtain ⟨rfl, hr, ht1, ht2, hn, ks, hks, hv⟩ := tI
      cases todo with
      | nil =>
        simp only [Option.some.injEq] at hm
        subst hm
        refine ⟨ch, ar, I.worker hi (by rw [ht]; simp) (by rw [ht]; simp) (by rw [ht]; simp) ?_⟩
        unfold ManyTask Kept
        simp only [setTask_self, setFn_self, true_and]
        refine ⟨⟨ht1, ht2, hn⟩, ?_⟩
        have := H.val id hi
        rw [List.append_nil] at hks
        unfold plain at this
        rw [hks, hv] at this
        simpa using this
      | cons key todo =>
        simp only [Option.bind_eq_bind, Option.bind_eq_some_iff] at hm
        obtain ⟨x, hx, hm⟩ := hm
        cases hm
        have RO : ReadOK F ok p.sys.bufs old (p.sys.fns id).next r := by
          refine ⟨?_, ?_, hn⟩
          · rintro b rfl
            rcases hr with h | ⟨h, _⟩ <;> cases h
          · rintro rfl
            rcases hr with h | ⟨_, h⟩
            · cases h
            · exact h
        obtain ⟨v1, v2⟩ := keyStep_valid H.same RO (H.keys id hi key (by rw [hks]; simp)) hx
        refine ⟨ch, ar, I.worker hi (by rw [ht]; simp) (by rw [ht]; simp) (by rw [ht]; simp) ?_⟩
        unfold ManyTask
        simp only [setTask_self, setFn_self, true_and]
        refine ⟨hr, ht1, ht2, ?_, ks ++ [key], by rw [hks]; simp, vals_split hv v1⟩
        intro e he
        rcases List.mem_append.mp he with h | h
        · exact hn e h
        · simp only [List.mem_singleton] at h
          subst h
          exact v2
    | done id v =>
      have hi := hi (by rw [ht]; simp)
      have tI := I.task i hi
      unfold ManyTask at tI
      rw [ht] at tI hm
      obtain ⟨rfl, hk, rfl⟩ := tI
      simp only [Option.some.injEq] at hm
      subst hm
      have hich : id ∉ ch := fun h => by obtain ⟨_, h⟩ := I.chT id h; rw [ht] at h; cases h
      refine ⟨ch ++ [id], ar, I.slots, ?_, ?_, by simp [I.chan], I.arr, I.arN, ?_, ?_, ?_, I.recv, ?_⟩
      · intro j hj
        by_cases hji : j = id
        · subst hji
          unfold ManyTask
          simp only [setTask_self, true_and]
          exact hk
        · exact (I.task j hj).frame' hji
      · intro j hj
        simp only [setTask]
        rw [if_neg (by omega)]
        exact I.out j hj
      · rw [List.nodup_append]
        exact ⟨I.chN, by simp, by intro a ha b hb; simp at hb; subst hb; rintro rfl; exact hich ha⟩
      · intro j hj
        rcases List.mem_append.mp hj with h | h
        · have : j ≠ id := fun e => hich (e ▸ h)
          simpa [setTask, this] using I.chT j h
        · simp only [List.mem_singleton] at h
          subst h
          exact ⟨j, by simp [setTask]⟩
      · intro j hj
        have : j ≠ id := by rintro rfl; obtain ⟨_, h⟩ := I.arT j hj; rw [ht] at h; cases h
        simpa [setTask, this] using I.arT j hj
      · intro k hk
        obtain ⟨a, b⟩ := I.sub k hk
        refine ⟨a, fun j hj => ?_⟩
        have : j ≠ id := by rintro rfl; rw [b j hj] at ht; cases ht
        simpa [setTask, this] using b j hj
  | main =>
    unfold evMove at hm
    simp only at hm
    cases hp : p.pc with
    | sub k =>
      rw [hp] at hm
      simp only at hm
      by_cases hk : k < n
      · rw [if_pos hk, I.slots] at hm
        have : (List.range n)[k]? = some k := by simp [hk]
        rw [this] at hm
        simp only [Option.bind_eq_bind, Option.bind_some, Option.some.injEq] at hm
        subst hm
        obtain ⟨rfl, hid⟩ := I.sub k hp
        refine ⟨ch, [], I.slots, ?_, ?_, I.chan, I.arr, I.arN, I.chN, ?_, by simp, by simp, ?_⟩
        · intro j hj
          by_cases hji : j = k
          · subst hji
            have tI := I.task j hj
            unfold ManyTask at tI ⊢
            rw [hid j le_rfl] at tI
            simp only [setTask_self, true_and]
            exact tI
          · exact (I.task j hj).frame' hji
        · intro j hj
          simp only [setTask]
          rw [if_neg (by omega)]
          exact I.out j hj
        · intro j hj
          have : j ≠ k := by rintro rfl; obtain ⟨_, h⟩ := I.chT j hj; rw [hid j le_rfl] at h; cases h
          simpa [setTask, this] using I.chT j hj
        · intro m hm
          simp only [PC.sub.injEq] at hm
          subst hm
          refine ⟨rfl, fun j hj => ?_⟩
          simp only [setTask]
          rw [if_neg (by omega)]
          exact hid j (by omega)
      · rw [if_neg hk] at hm
        simp only [Option.some.injEq] at hm
        subst hm
        obtain ⟨rfl, -⟩ := I.sub k hp
        exact ⟨ch, [], I.slots, I.task, I.out, I.chan, I.arr, I.arN, I.chN, I.chT, by simp, by simp, by simp⟩
    | recv m =>
      rw [hp] at hm
      simp only at hm
      cases ch with
      | nil =>
        rw [I.chan] at hm
        cases hm
      | cons i ch =>
        have hc := I.chan
        simp only [List.map_cons] at hc
        rw [hc] at hm
        obtain ⟨id, ht⟩ := I.chT i (by simp)
        have hi : i < n := by
          by_contra h
          rw [I.out i (by omega)] at ht
          cases ht
        have : (List.range n)[i]? = some i := by simp [hi]
        simp only [I.slots, this] at hm
        simp only [Ev.generic, Option.bind_eq_bind, Option.bind_some, Option.some.injEq] at hm
        subst hm
        have hcN := List.nodup_cons.mp I.chN
        have hiar : i ∉ ar := fun h => by obtain ⟨_, h⟩ := I.arT i h; rw [ht] at h; cases h
        refine ⟨ch, ar ++ [i], I.slots, ?_, ?_, rfl, by simp [I.arr], ?_, hcN.2, ?_, ?_, ?_, by simp⟩
        · intro j hj
          by_cases hji : j = i
          · subst hji
            have tI := I.task j hj
            unfold ManyTask at tI ⊢
            rw [ht] at tI
            simp only [setTask_self, true_and]
            exact tI.2
          · exact (I.task j hj).frame' hji
        · intro j hj
          simp only [setTask]
          rw [if_neg (by omega)]
          exact I.out j hj
        · rw [List.nodup_append]
          exact ⟨I.arN, by simp, by intro a ha b hb; simp at hb; subst hb; rintro rfl; exact hiar ha⟩
        · intro j hj
          have : j ≠ i := fun e => hcN.1 (e ▸ hj)
          simpa [setTask, this] using I.chT j (by simp [hj])
        · intro j hj
          rcases List.mem_append.mp hj with h | h
          · have : j ≠ i := fun e => hiar (e ▸ h)
            simpa [setTask, this] using I.arT j h
          · simp only [List.mem_singleton] at h
            subst h
            exact ⟨j, by simp [setTask]⟩
        · intro m' hm'
          simp only [PC.recv.injEq] at hm'
          rw [List.length_append, I.recv m hp, ← hm']
          rfl

theorem ManyInv.run (H : ManyOK F ok n T V) {s : Sys Dt K} (hs : s.slots = List.range n) (hh : ∀ i < n, Held F ok (pts i) (T i) (s.fns i))
    {l : List Who} (h : EvRun Ev.generic F n pts muts (Ph.start s) l q) : ∃ ch ar, ManyInv F ok n pts T V q ch ar := by
  generalize hp : Ph.start s = p at h
  induction h with
  | nil =>
    subst hp
    refine ⟨[], [], hs, ?_, fun _ _ => rfl, rfl, rfl, by simp, by simp, by simp, by simp, ?_, ?_⟩
    · intro i hi
      exact hh i hi
    · intro m hm; cases hm
    · intro k hk; exact ⟨rfl, fun _ _ => rfl⟩
  | snoc w _ _ hm ih =>
    obtain ⟨ch, ar, I⟩ := ih
    exact I.move H hm

/-- A finished evaluation with `many`: the results are the `V i`, the functions keep their triangulations. -/
theorem many_done (H : ManyOK F ok n T V) {s : Sys Dt K} (hs : s.slots = List.range n) (hh : ∀ i < n, Held F ok (pts i) (T i) (s.fns i))
    {l : List Who} (h : EvRun Ev.generic F n pts muts (Ph.start s) l q) (hf : q.Finished n) {fit : List ℚ} (hl : fit.length = n) :
    q.sys.slots = List.range n ∧ (∀ i < n, Kept F ok (T i) (q.sys.fns i)) ∧ collect fit q.arr = (List.range n).map V := by
  obtain ⟨ch, ar, I⟩ := ManyInv.run H hs hh h
  have hlen := I.recv n hf.1
  have hlt : ∀ i ∈ ar, i < n := by
    intro i hi
    by_contra hc
    obtain ⟨_, h⟩ := I.arT i hi
    rw [I.out i (by omega)] at h
    cases h
  have hsub : ar.Subperm (List.range n) := I.arN.subperm (fun i hi => List.mem_range.mpr (hlt i hi))
  have hperm : ar.Perm (List.range n) := hsub.perm_of_length_le (by rw [List.length_range, hlen])
  have hmem : ∀ i < n, i ∈ ar := fun i hi => hperm.mem_iff.mpr (List.mem_range.mpr hi)
  refine ⟨I.slots, ?_, ?_⟩
  · intro i hi
    obtain ⟨id, ht⟩ := I.arT i (hmem i hi)
    have tI := I.task i hi
    unfold ManyTask at tI
    rw [ht] at tI
    exact tI.2
  · apply List.ext_getElem?
    intro x
    rw [I.arr, collect_get ar fit x (fun i hi => by rw [hl]; exact hlt i hi)]
    by_cases hx : x < n
    · rw [if_pos (hmem x hx)]; simp [hx]
    · rw [if_neg (fun h => hx (hlt x h)), List.getElem?_eq_none (by omega), List.getElem?_eq_none (by simpa using hx)]

/-! ### Generations -/

/-- `newGeneration` keeps everything but the two populations and the mutations. -/
theorem evMutLoop_generic {μ : Mutator} {pop : List (List NP)} {cutoff : Nat} : ∀ (m i j : Nat) {st st' : List (List NP) × List (List Mut) × Sys Dt K},
    evMutLoop Ev.generic μ pop cutoff m i j st = some st' → st'.2.2 = st.2.2 ∧ st'.1.length = st.1.length ∧ ∀ x < i, st'.1[x]? = st.1[x]? := by
  intro m
  induction m with
  | zero => intro i j st st' h; cases h; exact ⟨rfl, rfl, fun _ _ => rfl⟩
  | succ m ih =>
    intro i j st st' h
    unfold evMutLoop at h
    by_cases hc : cutoff = 0
    · rw [if_pos hc] at h; cases h
    · rw [if_neg hc] at h
      simp only [Option.bind_eq_bind, Option.bind_eq_some_iff] at h
      obtain ⟨s1, h1, h2⟩ := h
      obtain ⟨a, b, c⟩ := ih _ _ h2
      unfold evMutStep at h1
      simp only [Option.bind_eq_bind, Option.bind_eq_some_iff] at h1
      obtain ⟨p, -, q, -, _, -, r, -, s, hs, h1⟩ := h1
      cases hs
      cases h1
      refine ⟨a, by rw [b]; simp, ?_⟩
      intro x hx
      rw [c x (by omega)]
      simp only
      rw [List.getElem?_set_ne (by omega)]

theorem elite_keeps {pop : List (List NP)} : ∀ (c : Nat) {st st' : List (List NP) × List (List Mut)},
    (List.range c).foldlM (eliteStep pop) st = some st' → st'.1.length = st.1.length ∧ ∀ x < c, st'.1[x]? = pop[x]? ∧ ∃ p, pop[x]? = some p := by
  intro c
  induction c with
  | zero => intro st st' h; cases h; exact ⟨rfl, fun _ h => by omega⟩
  | succ c ih =>
    intro st st' h
    rw [List.range_succ, List.foldlM_append] at h
    simp only [Option.bind_eq_bind, Option.bind_eq_some_iff] at h
    obtain ⟨s1, h1, h2⟩ := h
    obtain ⟨a, b⟩ := ih h1
    simp only [List.foldlM_cons, List.foldlM_nil] at h2
    unfold eliteStep setPts at h2
    simp only [Option.bind_eq_bind, Option.pure_def, Option.bind_eq_some_iff] at h2
    obtain ⟨s2, ⟨p, hp, q, hq, r, hr, _, -, h3⟩, h4⟩ := h2
    cases h3
    cases h4
    split at hr
    · cases hr
      have hc : c < s1.1.length := (List.getElem?_eq_some_iff.mp hq).1
      refine ⟨by simpa using a, ?_⟩
      intro x hx
      by_cases hxc : x = c
      · subst hxc
        exact ⟨by simp only; rw [hp, List.getElem?_set_self hc], p, hp⟩
      · have := b x (by omega)
        simp only
        rw [List.getElem?_set_ne (by omega)]
        exact this
    · cases hr

theorem evNewGeneration_generic {μ : Mutator} {cutoff lim : Nat} {a b : Algo Dt K} (h : evNewGeneration Ev.generic μ cutoff lim a = some b) :
    b.sys = a.sys ∧ b.fit = a.fit ∧ b.newPop = a.pop ∧ b.pop.length = a.newPop.length ∧ b.gen = a.gen ∧ b.bestFit = a.bestFit ∧
      ∀ x < cutoff, b.pop[x]? = a.pop[x]? ∧ ∃ p, a.pop[x]? = some p := by
  unfold evNewGeneration at h
  simp only [Option.bind_eq_bind, Option.bind_eq_some_iff] at h
  obtain ⟨e, he, st, hst, h⟩ := h
  cases h
  obtain ⟨e1, e2⟩ := elite_keeps cutoff he
  obtain ⟨s1, s2, s3⟩ := evMutLoop_generic _ _ _ hst
  refine ⟨s1, rfl, rfl, by rw [s2]; exact e1, rfl, rfl, ?_⟩
  intro x hx
  exact ⟨by simp only; rw [s3 x hx]; exact (e2 x hx).1, (e2 x hx).2⟩

/-- The swaps of the sorter do to the fitnesses what they do to the list of fitnesses alone. -/
theorem evSwaps_generic : ∀ (xs : List (Nat × Nat)) {a b : Algo Dt K}, xs.foldlM (evSwap Ev.generic) a = some b →
    xs.foldlM (fun l x => swapList l x.1 x.2) a.fit = some b.fit ∧ b.sys = a.sys ∧ b.newPop = a.newPop ∧ b.best = a.best ∧ b.gen = a.gen ∧
    xs.foldlM (fun l x => swapList l x.1 x.2) a.pop = some b.pop := by
  intro xs
  induction xs with
  | nil => intro a b h; cases h; exact ⟨rfl, rfl, rfl, rfl, rfl, rfl⟩
  | cons x xs ih =>
    intro a b h
    rw [List.foldlM_cons] at h
    simp only [Option.bind_eq_bind, Option.bind_eq_some_iff] at h
    obtain ⟨c, hc, h⟩ := h
    obtain ⟨h1, h2, h3, h4, h5, h6⟩ := ih h
    unfold evSwap at hc
    simp only [Option.bind_eq_bind, Option.bind_eq_some_iff] at hc
    obtain ⟨f, hf, p, hp, s, hs, hc⟩ := hc
    cases hs
    cases hc
    refine ⟨?_, h2, h3, h4, h5, ?_⟩
    · rw [List.foldlM_cons, hf]; exact h1
    · rw [List.foldlM_cons, hp]; exact h6

theorem swaps_perm {α : Type} : ∀ (xs : List (Nat × Nat)) {l l' : List α}, xs.foldlM (fun l x => swapList l x.1 x.2) l = some l' → l'.Perm l := by
  intro xs
  induction xs with
  | nil => intro l l' h; cases h; exact List.Perm.refl _
  | cons x xs ih =>
    intro l l' h
    rw [List.foldlM_cons] at h
    simp only [Option.bind_eq_bind, Option.bind_eq_some_iff] at h
    obtain ⟨m, hm, h⟩ := h
    exact (ih h).trans (swapList_perm hm)

/-- What `updateFitnesses` leaves. -/
theorem evUpdate_generic {srt : Sorter} {a b : Algo Dt K} (h : evUpdateFitnesses Ev.generic srt a = some b) :
    (srt a.fit).foldlM (fun l x => swapList l x.1 x.2) a.fit = some b.fit ∧ b.sys = a.sys ∧ b.newPop = a.newPop ∧ b.gen = a.gen ∧
    (srt a.fit).foldlM (fun l x => swapList l x.1 x.2) a.pop = some b.pop ∧ b.pop[0]? = some b.best ∧ b.fit[0]? = some b.bestFit := by
  unfold evUpdateFitnesses setPts at h
  simp only [Option.bind_eq_bind, Option.bind_eq_some_iff] at h
  obtain ⟨c, hc, p, hp, r, hr, v, hv, h⟩ := h
  cases h
  obtain ⟨h1, h2, h3, h4, h5, h6⟩ := evSwaps_generic _ hc
  split at hr
  · cases hr
    exact ⟨h1, h2, h3, h5, h6, hp, hv⟩
  · cases hr

/-! ### Executions with `many` -/

/-- The state between steps: `L` is the list of fitnesses. -/
structure ManyState (F : Fun Dt K) (ok : K → Prop) (n : Nat) (T : Nat → Dt) (L : List ℚ) (a : Algo Dt K) : Prop where
  slots : a.sys.slots = List.range n
  fns : ∀ i < n, Kept F ok (T i) (a.sys.fns i)
  pop : a.pop.length = n
  newPop : a.newPop.length = n
  fit : a.fit = L
  best : L[0]? = some a.bestFit

theorem many_exec {srt : Sorter} {cutoff : Nat} {M : Mutator → Prop} {init : List (List NP)} (H : ManyOK F ok init.length T V)
    (hb : ∀ i < init.length, (F.new.bind fun d0 => insAll F d0 (init.getD i [])) = some (T i))
    {L : List ℚ} (hL : (srt ((List.range init.length).map V)).foldlM (fun l x => swapList l x.1 x.2) ((List.range init.length).map V) = some L)
    {g : Nat} {a : Algo Dt K} (h : EvExec Ev.generic F srt cutoff M init (newMany init.length) g a) :
    ManyState F ok init.length T L a ∧ a.gen = g := by
  induction h with
  | @new l a h =>
    obtain ⟨a1, q, h1, h2, h3, h4⟩ := h
    unfold evInit at h1
    simp only [Option.bind_eq_bind, Option.bind_eq_some_iff] at h1
    obtain ⟨b, -, h1⟩ := h1
    cases h1
    obtain ⟨d1, d2, d3⟩ := many_done (fit := List.replicate init.length 0) H rfl
      (fun i hi => Or.inl ⟨rfl, rfl, hb i hi⟩) h2 h3 (by simp)
    obtain ⟨u1, u2, u3, u4, u5, u6, u7⟩ := evUpdate_generic h4
    simp only [d3] at u1 u5
    have e : a.fit = L := by rw [u1] at hL; exact Option.some.inj hL
    exact ⟨⟨by rw [u2]; exact d1, by rw [u2]; exact d2, (swaps_perm _ u5).length_eq, by rw [u3], e, by rw [← e]; exact u7⟩, u4⟩
  | @step g μ l a a' _ _ hs ih =>
    obtain ⟨I, hg⟩ := ih
    obtain ⟨a1, q, a2, h1, h2, h3, h4, rfl⟩ := hs
    obtain ⟨g1, g2, g3, g4, g5, g6, -⟩ := evNewGeneration_generic h1
    have hlen : a1.pop.length = init.length := by rw [g4, I.newPop]
    rw [hlen, g1] at h2
    rw [hlen] at h3
    obtain ⟨d1, d2, d3⟩ := many_done (fit := a1.fit) H I.slots (fun i hi => Or.inr (I.fns i hi)) h2 h3
      (by rw [g2, I.fit, (swaps_perm _ hL).length_eq]; simp)
    obtain ⟨u1, u2, u3, u4, u5, u6, u7⟩ := evUpdate_generic h4
    simp only [d3] at u1 u5
    have e : a2.fit = L := by rw [u1] at hL; exact Option.some.inj hL
    refine ⟨⟨?_, ?_, ?_, ?_, e, by rw [← e]; exact u7⟩, ?_⟩
    · simp only [u2]; exact d1
    · simp only [u2]; exact d2
    · simp only [(swaps_perm _ u5).length_eq]; exact hlen
    · simp only [u3, g3]; exact I.pop
    · simp only [u4, g5, hg]

/-! ### Functions whose value depends only on the points -/

/-- simple.go 38-51 `Step` with `one` or `many` over functions that return `f` of the points whatever they were called with before, so
that only the order in which the results arrive depends on the schedule. -/
def PureStep (f : List NP → ℚ) (srt : Sorter) (cutoff : Nat) (μ : Mutator) (order : List Nat) (a a' : Algo Dt K) : Prop :=
  ∃ a1 a2, evNewGeneration Ev.generic μ cutoff a.pop.length a = some a1 ∧ order.Perm (List.range a1.pop.length) ∧
    evUpdateFitnesses Ev.generic srt { a1 with fit := collect a1.fit (order.map fun i => (i, f (ptsOf a1 i))) } = some a2 ∧
    a' = { a2 with gen := a2.gen + 1 }

/-- simple.go 146-173 `NewSimple`, likewise. -/
def PureNew (f : List NP → ℚ) (srt : Sorter) (init : List (List NP)) (s : Sys Dt K) (order : List Nat) (a : Algo Dt K) : Prop :=
  ∃ a1, evInit init s = some a1 ∧ order.Perm (List.range a1.pop.length) ∧
    evUpdateFitnesses Ev.generic srt { a1 with fit := collect a1.fit (order.map fun i => (i, f (ptsOf a1 i))) } = some a

/-- Construction, then steps with any mutator and order of arrival. -/
inductive PureExec (f : List NP → ℚ) (srt : Sorter) (cutoff : Nat) (M : Mutator → Prop) (init : List (List NP)) (s : Sys Dt K) : Nat → Algo Dt K → Prop where
  | new {o a} : PureNew f srt init s o a → PureExec f srt cutoff M init s 0 a
  | step {g μ o a a'} : PureExec f srt cutoff M init s g a → M μ → PureStep f srt cutoff μ o a a' → PureExec f srt cutoff M init s (g + 1) a'

theorem swapList_map {α β : Type} (f : α → β) (l : List α) (i j : Nat) : swapList (l.map f) i j = (swapList l i j).map (List.map f) := by
  unfold swapList
  simp only [List.getElem?_map, Option.bind_eq_bind]
  cases l[i]? with
  | none => rfl
  | some a =>
    cases l[j]? with
    | none => rfl
    | some b => simp [List.map_set]

theorem swaps_map {α β : Type} (f : α → β) : ∀ (xs : List (Nat × Nat)) (l : List α),
    xs.foldlM (fun l x => swapList l x.1 x.2) (l.map f) = (xs.foldlM (fun l x => swapList l x.1 x.2) l).map (List.map f) := by
  intro xs
  induction xs with
  | nil => intro l; rfl
  | cons x xs ih =>
    intro l
    rw [List.foldlM_cons, List.foldlM_cons, swapList_map]
    cases swapList l x.1 x.2 with
    | none => rfl
    | some m => simpa using ih m

/-- The fitnesses of a stateless function after all results are in. -/
theorem collect_pure {f : List NP → ℚ} {a : Algo Dt K} {order : List Nat} (ho : order.Perm (List.range a.pop.length)) (hl : a.fit.length = a.pop.length) :
    collect a.fit (order.map fun i => (i, f (ptsOf a i))) = a.pop.map f := by
  apply List.ext_getElem?
  intro x
  rw [collect_get order a.fit x (fun i hi => by rw [hl]; exact List.mem_range.mp (ho.mem_iff.mp hi))]
  by_cases hx : x < a.pop.length
  · rw [if_pos (ho.mem_iff.mpr (List.mem_range.mpr hx))]
    simp [ptsOf, hx]
  · rw [if_neg (fun h => hx (List.mem_range.mp (ho.mem_iff.mp h))), List.getElem?_eq_none (by omega), List.getElem?_eq_none (by simpa using hx)]

/-- The state between steps. -/
structure PureState (f : List NP → ℚ) (n : Nat) (a : Algo Dt K) : Prop where
  pop : a.pop.length = n
  newPop : a.newPop.length = n
  fit : a.fit = a.pop.map f
  sorted : a.fit.Pairwise (· ≥ ·)
  best : a.pop[0]? = some a.best
  bestFit : a.fit[0]? = some a.bestFit

theorem pure_update {f : List NP → ℚ} {srt : Sorter} (hs : SortOK srt) {a b : Algo Dt K} (hf : a.fit = a.pop.map f)
    (h : evUpdateFitnesses Ev.generic srt a = some b) (hl : a.newPop.length = a.pop.length) : PureState f a.pop.length b ∧ b.pop.Perm a.pop := by
  obtain ⟨u1, -, u3, -, u5, u6, u7⟩ := evUpdate_generic h
  have hp := swaps_perm _ u5
  refine ⟨⟨hp.length_eq, by rw [u3]; exact hl, ?_, ?_, u6, u7⟩, hp⟩
  · have e := swaps_map f (srt a.fit) a.pop
    rw [u5, ← hf, u1] at e
    exact Option.some.inj e
  · obtain ⟨l', h1, h2⟩ := hs a.fit
    rw [u1] at h1
    cases h1
    exact h2

theorem pure_step {f : List NP → ℚ} {srt : Sorter} (hs : SortOK srt) {cutoff n : Nat} (hc : 1 ≤ cutoff) {μ : Mutator} {o : List Nat} {a a' : Algo Dt K}
    (I : PureState f n a) (h : PureStep f srt cutoff μ o a a') : PureState f n a' ∧ a'.gen = a.gen + 1 ∧ a.bestFit ≤ a'.bestFit := by
  obtain ⟨a1, a2, h1, h2, h3, rfl⟩ := h
  obtain ⟨g1, g2, g3, g4, g5, g6, g7⟩ := evNewGeneration_generic h1
  have hlen : a1.pop.length = n := by rw [g4, I.newPop]
  rw [collect_pure h2 (by rw [g2, I.fit, List.length_map, I.pop, hlen])] at h3
  obtain ⟨J, hp⟩ := pure_update hs rfl h3 (by simp only [g3]; rw [I.pop, hlen])
  simp only [hlen] at J hp
  obtain ⟨-, -, -, u4, -⟩ := evUpdate_generic h3
  refine ⟨⟨J.pop, J.newPop, J.fit, J.sorted, J.best, J.bestFit⟩, by simp only [u4, g5], ?_⟩
  simp only
  have hb : a.best ∈ a2.pop := by
    rw [hp.mem_iff]
    apply List.mem_of_getElem? (i := 0)
    rw [(g7 0 (by omega)).1, I.best]
  have hv : f a.best = a.bestFit := by
    have := I.bestFit
    rw [I.fit, List.getElem?_map, I.best] at this
    simpa using this
  rw [← hv]
  refine sorted_head J.sorted J.bestFit _ ?_
  rw [J.fit]
  exact List.mem_map_of_mem hb

theorem pure_exec {f : List NP → ℚ} {srt : Sorter} (hs : SortOK srt) {cutoff : Nat} (hc : 1 ≤ cutoff) {M : Mutator → Prop} {init : List (List NP)}
    {s : Sys Dt K} {g : Nat} {a : Algo Dt K} (h : PureExec f srt cutoff M init s g a) : PureState f init.length a ∧ a.gen = g := by
  induction h with
  | new h =>
    obtain ⟨a1, h1, h2, h3⟩ := h
    unfold evInit at h1
    simp only [Option.bind_eq_bind, Option.bind_eq_some_iff] at h1
    obtain ⟨b, -, h1⟩ := h1
    cases h1
    rw [collect_pure h2 (by simp)] at h3
    exact ⟨(pure_update hs rfl h3 rfl).1, (evUpdate_generic h3).2.2.2.1⟩
  | step _ _ hst ih =>
    obtain ⟨I, hg⟩ := ih
    obtain ⟨J, hg', -⟩ := pure_step hs hc I hst
    exact ⟨J, by rw [hg', hg]⟩

/-! ### Running a given schedule -/

/-- The state after a schedule. -/
def evPlay (E : Ev Dt K) (F : Fun Dt K) (n : Nat) (pts : Nat → List NP) (muts : Nat → List Mut) (p : Ph Dt K) (l : List Who) : Option (Ph Dt K) :=
  l.foldlM (fun p w => if enabledB n p w then evMove E F n pts muts p w else none) p

theorem evPlay_run {E : Ev Dt K} {n : Nat} {pts : Nat → List NP} {muts : Nat → List Mut} : ∀ (l : List Who) {l0 : List Who} {p0 p q : Ph Dt K},
    EvRun E F n pts muts p0 l0 p → evPlay E F n pts muts p l = some q → EvRun E F n pts muts p0 (l0 ++ l) q := by
  intro l
  induction l with
  | nil =>
    intro l0 p0 p q h hq
    cases hq
    rw [List.append_nil]
    exact h
  | cons w l ih =>
    intro l0 p0 p q h hq
    unfold evPlay at hq
    rw [List.foldlM_cons] at hq
    simp only [Option.bind_eq_bind, Option.bind_eq_some_iff] at hq
    obtain ⟨r, hr, hq⟩ := hq
    split at hr
    · rename_i he
      have := ih (h.snoc w (enabledB_iff.mp he) hr) hq
      rwa [List.append_assoc] at this
    · cases hr

end

end Verif.Alg

import Verif.Alg.PhaseEnd

/-!
# Model of the two algorithms

A mutator is an arbitrary function of the member index and the points, so that a theorem about all mutators covers all
random sources.  `sort.Sort` is an arbitrary function that chooses the swaps from the fitnesses.
Members are values: the point groups of `population` and `newPopulation` are assumed not to share memory, which holds when
`newPointGroup` returns a new group at each call.
-/

namespace Verif.Alg

open Verif.Fit

variable {Dt K : Type}

/-- simple.go 20-36 `simple` and modifiedgenetic.go 21-39 `modifiedGenetic` (without the beneficial mutations, which do not outlive a
step), with the parallel evaluator. -/
structure Algo (Dt K : Type) where
  sys : Sys Dt K
  pop : List (List NP)
  newPop : List (List NP)
  fit : List ℚ
  muts : List (List Mut)
  best : List NP
  bestFit : ℚ
  gen : Nat

/-- The result of `Mutate` (mutation/method.go 9-13) on the points of member `i`: the new points and the recorded mutations. -/
abbrev Mutator := Nat → List NP → List NP × List Mut

/-- normpoint.go 43-49 `Set`: panics if the lengths differ. -/
def setPts (p other : List NP) : Option (List NP) := if p.length = other.length then some other else none

/-- simple.go 102-105, modifiedgenetic.go 66-69: a member that survives. -/
def eliteStep (pop : List (List NP)) (st : List (List NP) × List (List Mut)) (i : Nat) : Option (List (List NP) × List (List Mut)) := do
  let p ← pop[i]?
  let q ← st.1[i]?
  let r ← setPts q p
  let _ ← st.2[i]?
  some (st.1.set i r, st.2.set i [])

/-- simple.go 109-116, modifiedgenetic.go 78-87: a member made from base `j`. -/
def mutStep (μ : Mutator) (pop : List (List NP)) (st : List (List NP) × List (List Mut) × Sys Dt K) (i j : Nat) :
    Option (List (List NP) × List (List Mut) × Sys Dt K) := do
  let p ← pop[j]?
  let q ← st.1[i]?
  let _ ← st.2.1[i]?
  let r ← setPts q p
  let s ← setBase st.2.2 i j
  some (st.1.set i (μ i r).1, st.2.1.set i (μ i r).2, s)

/-- simple.go 107-118, modifiedgenetic.go 75-89: the two nested loops, with `m` members to fill, the next being `i`, and `j` the inner
variable, which starts again at 0 when it has reached `cutoff`.  With `cutoff = 0` the outer loop never ends. -/
def mutLoop (μ : Mutator) (pop : List (List NP)) (cutoff : Nat) : Nat → Nat → Nat → List (List NP) × List (List Mut) × Sys Dt K →
    Option (List (List NP) × List (List Mut) × Sys Dt K)
  | 0, _, _, st => some st
  | m + 1, i, j, st =>
    if cutoff = 0 then none
    else do
      let st ← mutStep μ pop st i (if j < cutoff then j else 0)
      mutLoop μ pop cutoff m (i + 1) ((if j < cutoff then j else 0) + 1) st

/-- simple.go 99-121 `newGeneration` with `lim` the size of the population; modifiedgenetic.go 60-96 with `lim` that size minus
`cutoff`. -/
def newGeneration (μ : Mutator) (cutoff lim : Nat) (a : Algo Dt K) : Option (Algo Dt K) := do
  let e ← (List.range cutoff).foldlM (eliteStep a.pop) (a.newPop, a.muts)
  let st ← mutLoop μ a.pop cutoff (lim - cutoff) cutoff 0 (e.1, e.2, a.sys)
  some { a with pop := st.1, newPop := a.pop, muts := st.2.1, sys := st.2.2 }

/-- simple.go 80: the fitnesses received so far are stored. -/
def collect (fit : List ℚ) (arr : List (Nat × ℚ)) : List ℚ := arr.foldl (fun f x => f.set x.1 x.2) fit

/-- simple.go 139-143, modifiedgenetic.go 240-244 `Swap`. -/
def swapAlgo (a : Algo Dt K) (x : Nat × Nat) : Option (Algo Dt K) := do
  let f ← swapList a.fit x.1 x.2
  let p ← swapList a.pop x.1 x.2
  let s ← swap a.sys x.1 x.2
  some { a with fit := f, pop := p, sys := s }

/-- `sort.Sort`: its swaps, chosen from the fitnesses it compares. -/
abbrev Sorter := List ℚ → List (Nat × Nat)

/-- The contract of `sort.Sort` with `Less` of simple.go 135-137: the fitnesses end in decreasing order. -/
def SortOK (srt : Sorter) : Prop := ∀ l : List ℚ, ∃ l', (srt l).foldlM (fun l x => swapList l x.1 x.2) l = some l' ∧ l'.Pairwise (· ≥ ·)

/-- simple.go 91-96, modifiedgenetic.go 209-215 `updateFitnesses`. -/
def updateFitnesses (srt : Sorter) (a : Algo Dt K) : Option (Algo Dt K) := do
  let a ← (srt a.fit).foldlM swapAlgo a
  let p ← a.pop[0]?
  let b ← setPts a.best p
  let v ← a.fit[0]?
  some { a with best := b, bestFit := v }

/-- The points and mutations the tasks read (simple.go 57-66). -/
def ptsOf (a : Algo Dt K) (i : Nat) : List NP := a.pop.getD i []

/-- See `ptsOf`. -/
def mutsOf (a : Algo Dt K) (i : Nat) : List Mut := a.muts.getD i []

section
variable (F : Fun Dt K)

/-- simple.go 38-51 `Step` of the simple algorithm, under the schedule `l`. -/
def SimpleStep (srt : Sorter) (cutoff : Nat) (μ : Mutator) (l : List Who) (a a' : Algo Dt K) : Prop :=
  ∃ a1 q a2, newGeneration μ cutoff a.pop.length a = some a1 ∧
    Run F a1.pop.length (ptsOf a1) (mutsOf a1) (Ph.start a1.sys) l q ∧ q.Finished a1.pop.length ∧
    updateFitnesses srt { a1 with sys := q.sys, fit := collect a1.fit q.arr } = some a2 ∧
    a' = { a2 with gen := a2.gen + 1 }

/-- simple.go 146-169: the fields before the first evaluation; `init` is what `newPointGroup` returns, `2 ^ k` the cache size. -/
def simpleInit (init : List (List NP)) (k : Nat) : Option (Algo Dt K) := do
  let b ← init[0]?
  some ⟨newParallel init.length k, init, init, List.replicate init.length 0, List.replicate init.length [], b, 0, 0⟩

/-- simple.go 146-173 `NewSimple`, under the schedule `l`. -/
def NewSimple (srt : Sorter) (init : List (List NP)) (k : Nat) (l : List Who) (a : Algo Dt K) : Prop :=
  ∃ a1 q, simpleInit init k = some a1 ∧
    Run F a1.pop.length (ptsOf a1) (mutsOf a1) (Ph.start a1.sys) l q ∧ q.Finished a1.pop.length ∧
    updateFitnesses srt { a1 with sys := q.sys, fit := collect a1.fit q.arr } = some a

/-- Everything that can happen to the simple algorithm: construction, then steps with any mutator and schedule. -/
inductive SimpleExec (srt : Sorter) (cutoff : Nat) (M : Mutator → Prop) (init : List (List NP)) (k : Nat) : Nat → Algo Dt K → Prop where
  | new {l a} : NewSimple F srt init k l a → SimpleExec srt cutoff M init k 0 a
  | step {g μ l a a'} : SimpleExec srt cutoff M init k g a → M μ → SimpleStep F srt cutoff μ l a a' → SimpleExec srt cutoff M init k (g + 1) a'

end

end Verif.Alg

import Verif.Alg.Algo

/-!
# Model of the modified genetic algorithm

`Mutations` and `Indexes` of `MutationsData` always have the same length; they are modelled as one list of pairs.
-/

namespace Verif.Alg

open Verif.Fit

variable {Dt K : Type}

/-- data.go 12-16 `MutationsData`: mutations and the members they come from. -/
abbrev Ben := List (Mut × Nat)

/-- modifiedgenetic.go 146-170: one iteration of the loop of `setBeneficial`. -/
def benStep (fit : List ℚ) (index : Nat) (b : Ben) (m : Mut) : Option Ben :=
  match b.findIdx? (fun o => decide (m.index = o.1.index)) with
  | none => some (b ++ [(m, index)])
  | some j => do
    let o ← b[j]?
    let x ← fit[index]?
    let y ← fit[o.2]?
    some (if x > y then b.set j (m, index) else b)

/-- modifiedgenetic.go 143-171 `setBeneficial`; 218-220 `getBase` panics for `cutoff = 0`. -/
def setBeneficial (fit : List ℚ) (muts : List (List Mut)) (cutoff index : Nat) (bs : List Ben) : Option (List Ben) := do
  if cutoff = 0 then none
  else do
    let ms ← muts[index]?
    let b ← bs[index % cutoff]?
    let b' ← ms.foldlM (benStep fit index) b
    some (bs.set (index % cutoff) b')

/-- modifiedgenetic.go 125-132: what the collector does with one result, apart from `Update`. -/
def recvStep (cutoff : Nat) (muts : List (List Mut)) (st : List ℚ × List Ben) (d : Nat × ℚ) : Option (List ℚ × List Ben) :=
  if cutoff = 0 then none
  else do
    let y ← (st.1.set d.1 d.2)[d.1 % cutoff]?
    if d.2 > y then do
      let bs ← setBeneficial (st.1.set d.1 d.2) muts cutoff d.1 st.2
      some (st.1.set d.1 d.2, bs)
    else some (st.1.set d.1 d.2, st.2)

/-- modifiedgenetic.go 188-190: perform one mutation; an index out of range panics. -/
def applyMut (ps : List NP) (m : Mut) : Option (List NP) := if m.index < ps.length then some (ps.set m.index m.new) else none

/-- modifiedgenetic.go 176-205: one iteration of the loop of `combineMutations`. -/
def combineStep (F : Fun Dt K) (cutoff : Nat) (bs : List Ben) (a : Algo Dt K) (i : Nat) : Option (Algo Dt K) :=
  if cutoff = 0 then none
  else do
    let _ ← a.muts[i]?
    let b ← bs[i % cutoff]?
    if 0 < b.length then do
      let p ← a.pop[i]?
      let q ← a.pop[i % cutoff]?
      let r ← setPts p q
      let s ← setBase a.sys i (i % cutoff)
      let r ← (b.map Prod.fst).foldlM applyMut r
      let x ← calculate F s i r (b.map Prod.fst)
      let s ← update x.2 i
      some { a with pop := a.pop.set i r, muts := a.muts.set i (b.map Prod.fst), fit := a.fit.set i x.1, sys := s }
    else some { a with muts := a.muts.set i [], fit := a.fit.set i 0 }

/-- modifiedgenetic.go 174-206 `combineMutations`. -/
def combineMutations (F : Fun Dt K) (cutoff : Nat) (bs : List Ben) (a : Algo Dt K) : Option (Algo Dt K) :=
  (List.range' (a.pop.length - cutoff) cutoff).foldlM (combineStep F cutoff bs) a

section
variable (F : Fun Dt K)

/-- modifiedgenetic.go 41-57 `Step`, under the schedule `l`, up to and including `combineMutations` (line 50): `b` is the state after
`newGeneration`, `c` the one after `combineMutations`. -/
def ModEval (cutoff : Nat) (l : List Who) (b c : Algo Dt K) : Prop :=
  ∃ q st, Run F (b.pop.length - cutoff) (ptsOf b) (mutsOf b) (Ph.start b.sys) l q ∧ q.Finished (b.pop.length - cutoff) ∧
    q.arr.foldlM (recvStep cutoff b.muts) (b.fit, List.replicate cutoff []) = some st ∧
    combineMutations F cutoff st.2 { b with sys := q.sys, fit := st.1 } = some c

/-- modifiedgenetic.go 41-57 `Step`, under the schedule `l`. -/
def ModStep (srt : Sorter) (cutoff : Nat) (μ : Mutator) (l : List Who) (a a' : Algo Dt K) : Prop :=
  ∃ b c d, newGeneration μ cutoff (a.pop.length - cutoff) a = some b ∧ ModEval F cutoff l b c ∧ updateFitnesses srt c = some d ∧
    a' = { d with gen := d.gen + 1 }

/-- modifiedgenetic.go 247-277 `NewModifiedGenetic`, under the schedule `l`.  The fields before the evaluation are those of the
simple algorithm. -/
def NewMod (srt : Sorter) (cutoff : Nat) (init : List (List NP)) (k : Nat) (l : List Who) (a : Algo Dt K) : Prop :=
  ∃ b q st, simpleInit init k = some b ∧
    Run F (b.pop.length - cutoff) (ptsOf b) (mutsOf b) (Ph.start b.sys) l q ∧ q.Finished (b.pop.length - cutoff) ∧
    q.arr.foldlM (recvStep cutoff b.muts) (b.fit, List.replicate cutoff []) = some st ∧
    updateFitnesses srt { b with sys := q.sys, fit := st.1 } = some a

/-- What can happen to the modified genetic algorithm: construction, then steps from states in `Q`, with mutators in `M` and any schedules. -/
inductive ModExec (srt : Sorter) (cutoff : Nat) (M : Mutator → Prop) (Q : Algo Dt K → Prop) (init : List (List NP)) (k : Nat) : Nat → Algo Dt K → Prop where
  | new {l a} : NewMod F srt cutoff init k l a → ModExec srt cutoff M Q init k 0 a
  | step {g μ l a a'} : ModExec srt cutoff M Q init k g a → Q a → M μ → ModStep F srt cutoff μ l a a' → ModExec srt cutoff M Q init k (g + 1) a'

end

end Verif.Alg

import Verif.Alg.Laws
import Verif.Alg.Modified
import Verif.Alg.Exec

/-!
# Concrete executions

A schedule can be played: this gives concrete executions for examples and counterexamples.  `bagFun` is a small fitness function over bags of points
that obeys the laws.
-/

namespace Verif.Alg

open Verif.Fit

variable {Dt K : Type}

/-- `Enabled` as a boolean. -/
def enabledB (n : Nat) (p : Ph Dt K) : Who → Bool
  | .main =>
    match p.pc with
    | .sub _ => true
    | .recv m => (decide (m < n) || decide (n = 0)) && !p.chan.isEmpty
  | .work i =>
    match p.tasks i with
    | .ready _ => true
    | .loop .. => true
    | .done .. => true
    | _ => false

theorem enabledB_iff {n : Nat} {p : Ph Dt K} {w : Who} : enabledB n p w = true ↔ Enabled n p w := by
  cases w with
  | main =>
    unfold enabledB Enabled
    cases p.pc <;> simp
  | work i =>
    unfold enabledB Enabled
    simp only
    cases p.tasks i <;> simp

/-- Play a schedule. -/
def play (F : Fun Dt K) (n : Nat) (pts : Nat → List NP) (muts : Nat → List Mut) (p : Ph Dt K) (l : List Who) : Option (Ph Dt K) :=
  l.foldlM (fun p w => if enabledB n p w then move F n pts muts p w else none) p

theorem play_run {F : Fun Dt K} {n : Nat} {pts : Nat → List NP} {muts : Nat → List Mut} {p : Ph Dt K} (l : List Who) :
    ∀ {q}, play F n pts muts p l = some q → Run F n pts muts p l q := by
  induction l using List.reverseRecOn with
  | nil => intro q h; cases h; exact Run.nil _
  | append_singleton l w ih =>
    intro q h
    unfold play at h
    rw [List.foldlM_append] at h
    simp only [List.foldlM_cons, List.foldlM_nil, Option.bind_eq_bind, Option.bind_eq_some_iff] at h
    obtain ⟨p1, h1, q1, h2, h3⟩ := h
    cases h3
    by_cases he : enabledB n p1 w = true
    · rw [if_pos he] at h2
      exact Run.snoc w (ih h1) (enabledB_iff.mp he) h2
    · rw [if_neg he] at h2
      cases h2

/-- All tasks run one after the other: submit, `Prepare`, each worker with `m i` pieces, then all results are received. -/
def inOrder (n : Nat) (m : Nat → Nat) (order : List Nat) : List Who :=
  List.replicate (n + 1) .main ++ order.flatMap (fun i => List.replicate (m i + 3) (.work i)) ++ List.replicate n .main

/-- Play `NewModifiedGenetic`. -/
def playNewMod (F : Fun Dt K) (srt : Sorter) (cutoff : Nat) (init : List (List NP)) (k : Nat) (l : List Who) : Option (Algo Dt K) := do
  let b ← simpleInit init k
  let q ← play F (b.pop.length - cutoff) (ptsOf b) (mutsOf b) (Ph.start b.sys) l
  if q.pc = .recv (b.pop.length - cutoff) ∧ 0 < b.pop.length - cutoff then do
    let st ← q.arr.foldlM (recvStep cutoff b.muts) (b.fit, List.replicate cutoff [])
    updateFitnesses srt { b with sys := q.sys, fit := st.1 }
  else none

theorem playNewMod_ok {F : Fun Dt K} {srt : Sorter} {cutoff : Nat} {init : List (List NP)} {k : Nat} {l : List Who} {a : Algo Dt K}
    (h : playNewMod F srt cutoff init k l = some a) : NewMod F srt cutoff init k l a := by
  unfold playNewMod at h
  simp only [Option.bind_eq_bind, Option.bind_eq_some_iff] at h
  obtain ⟨b, h1, q, h2, h3⟩ := h
  split at h3
  · rename_i hf
    simp only [Option.bind_eq_some_iff] at h3
    obtain ⟨st, h4, h5⟩ := h3
    exact ⟨b, q, st, h1, play_run l h2, hf, h4, h5⟩
  · cases h3

/-- Play a step up to `combineMutations`. -/
def playEval (F : Fun Dt K) (cutoff : Nat) (l : List Who) (b : Algo Dt K) : Option (Algo Dt K) := do
  let q ← play F (b.pop.length - cutoff) (ptsOf b) (mutsOf b) (Ph.start b.sys) l
  if q.pc = .recv (b.pop.length - cutoff) ∧ 0 < b.pop.length - cutoff then do
    let st ← q.arr.foldlM (recvStep cutoff b.muts) (b.fit, List.replicate cutoff [])
    combineMutations F cutoff st.2 { b with sys := q.sys, fit := st.1 }
  else none

theorem playEval_ok {F : Fun Dt K} {cutoff : Nat} {l : List Who} {b c : Algo Dt K} (h : playEval F cutoff l b = some c) : ModEval F cutoff l b c := by
  unfold playEval at h
  simp only [Option.bind_eq_bind, Option.bind_eq_some_iff] at h
  obtain ⟨q, h2, h3⟩ := h
  split at h3
  · rename_i hf
    simp only [Option.bind_eq_some_iff] at h3
    obtain ⟨st, h4, h5⟩ := h3
    exact ⟨q, st, play_run l h2, hf, h4, h5⟩
  · cases h3

/-- Play a step. -/
def playMod (F : Fun Dt K) (srt : Sorter) (cutoff : Nat) (μ : Mutator) (l : List Who) (a : Algo Dt K) : Option (Algo Dt K) := do
  let b ← newGeneration μ cutoff (a.pop.length - cutoff) a
  let c ← playEval F cutoff l b
  let d ← updateFitnesses srt c
  some { d with gen := d.gen + 1 }

theorem playMod_ok {F : Fun Dt K} {srt : Sorter} {cutoff : Nat} {μ : Mutator} {l : List Who} {a a' : Algo Dt K}
    (h : playMod F srt cutoff μ l a = some a') : ModStep F srt cutoff μ l a a' := by
  unfold playMod at h
  simp only [Option.bind_eq_bind, Option.bind_eq_some_iff, Option.some.injEq] at h
  obtain ⟨b, h1, c, h2, d, h3, h4⟩ := h
  exact ⟨b, c, d, h1, playEval_ok h2, h3, h4.symm⟩

/-! ### A sort by selection -/

/-- The swaps of selection sort. -/
def selSwaps : Nat → List ℚ → List (Nat × Nat)
  | 0, _ => []
  | _ + 1, [] => []
  | n + 1, a :: t =>
    let m := (a :: t).idxOf (t.foldl max a)
    (0, m) :: (selSwaps n (((a :: t).set 0 ((a :: t).getD m 0)).set m a).tail).map fun y => (y.1 + 1, y.2 + 1)

theorem foldl_max : ∀ (t : List ℚ) (a : ℚ), t.foldl max a ∈ a :: t ∧ ∀ x ∈ a :: t, x ≤ t.foldl max a := by
  intro t
  induction t with
  | nil => intro a; simp
  | cons b t ih =>
    intro a
    obtain ⟨h1, h2⟩ := ih (max a b)
    rw [List.foldl_cons]
    constructor
    · rcases List.mem_cons.mp h1 with h | h
      · rw [h]
        rcases max_choice a b with e | e <;> rw [e] <;> simp
      · simp [h]
    · intro x hx
      have hm := h2 (max a b) (by simp)
      rcases List.mem_cons.mp hx with rfl | hx
      · exact (le_max_left _ _).trans hm
      · rcases List.mem_cons.mp hx with rfl | hx
        · exact (le_max_right _ _).trans hm
        · exact h2 x (List.mem_cons_of_mem _ hx)

theorem selSwaps_ok : ∀ (n : Nat) (l : List ℚ), l.length = n →
    ∃ l' : List ℚ, (selSwaps n l).foldlM (fun l y => swapList l y.1 y.2) l = some l' ∧ l'.Pairwise (· ≥ ·) ∧ l'.Perm l := by
  intro n
  induction n with
  | zero =>
    intro l hl
    have := List.length_eq_zero_iff.mp hl
    subst this
    exact ⟨[], rfl, List.Pairwise.nil, List.Perm.refl _⟩
  | succ n ih =>
    intro l hl
    cases l with
    | nil => cases hl
    | cons a t =>
      obtain ⟨hy, hmax⟩ := foldl_max t a
      have hm : (a :: t).idxOf (t.foldl max a) < (a :: t).length := List.idxOf_lt_length_of_mem hy
      have hg : (a :: t)[(a :: t).idxOf (t.foldl max a)] = t.foldl max a := List.getElem_idxOf hm
      unfold selSwaps
      simp only
      generalize (a :: t).idxOf (t.foldl max a) = m at hm hg
      have hd : (a :: t).getD m 0 = t.foldl max a := by rw [List.getD_eq_getElem?_getD, List.getElem?_eq_getElem hm, hg]; rfl
      rw [hd]
      generalize t.foldl max a = y at *
      have hperm : swapList (a :: t) 0 m = some (y :: (((a :: t).set 0 y).set m a).tail) ∧
          (y :: (((a :: t).set 0 y).set m a).tail).Perm (a :: t) := by
        cases m with
        | zero =>
          have : a = y := hg
          subst this
          exact ⟨by simp [swapList], by simp⟩
        | succ m =>
          have hm' : m < t.length := by simpa using hm
          have hg' : t[m] = y := hg
          subst hg'
          refine ⟨by simp [swapList, hm'], ?_⟩
          have := List.set_set_perm (as := (a :: t)) (i := 0) (j := m + 1) (by simp) hm
          simpa using this
      obtain ⟨h1, h2⟩ := hperm
      generalize (((a :: t).set 0 y).set m a).tail = t' at *
      have hlt : t'.length = n := by have := h2.length_eq; simp at this hl; omega
      obtain ⟨l', h3, h4, h5⟩ := ih t' hlt
      refine ⟨y :: l', ?_, ?_, ?_⟩
      · rw [List.foldlM_cons]
        simp only [h1, Option.bind_eq_bind, Option.bind_some]
        exact foldlM_shift _ _ t' l' h3
      · refine List.Pairwise.cons ?_ h4
        intro x hx
        exact hmax x (h2.mem_iff.mp (List.mem_cons_of_mem _ (h5.mem_iff.mp hx)))
      · exact (h5.cons _).trans h2

/-- Selection sort. -/
def selSorter : Sorter := fun l => selSwaps l.length l

theorem selSorter_ok : SortOK selSorter := by
  intro l
  obtain ⟨l', h1, h2, _⟩ := selSwaps_ok l.length l rfl
  exact ⟨l', h1, h2⟩

/-- A fitness function over bags of points: one piece per point, with value `f`. -/
def bagFun (f : NP → ℚ) (fin : List (NP × ℚ) → ℚ) : Fun (List NP) NP where
  new := some []
  ins d p := some (p :: d)
  rem d p := if p ∈ d then some (d.erase p) else none
  set _ o := o
  keys d := d
  hash _ := 0
  same a b := decide (a = b)
  val p := some (f p)
  fin := fin

theorem bag_ins (f : NP → ℚ) (fin : List (NP × ℚ) → ℚ) : ∀ (ps d : List NP), insAll (bagFun f fin) d ps = some (ps.reverse ++ d) := by
  intro ps
  induction ps with
  | nil => intro d; rfl
  | cons p ps ih =>
    intro d
    show (some (p :: d)).bind (fun d => insAll (bagFun f fin) d ps) = _
    rw [Option.bind_some, ih]
    simp

theorem bag_rem (f : NP → ℚ) (fin : List (NP × ℚ) → ℚ) : ∀ (ps d rest : List NP), d.Perm (ps ++ rest) →
    ∃ d', ps.foldlM (bagFun f fin).rem d = some d' ∧ d'.Perm rest := by
  intro ps
  induction ps with
  | nil => intro d rest h; exact ⟨d, rfl, h⟩
  | cons p ps ih =>
    intro d rest h
    have hp : p ∈ d := h.mem_iff.mpr (by simp)
    obtain ⟨d', h1, h2⟩ := ih (d.erase p) rest (by
      have := h.erase p
      simpa using this)
    refine ⟨d', ?_, h2⟩
    rw [List.foldlM_cons]
    show ((if p ∈ d then some (d.erase p) else none).bind _) = _
    rw [if_pos hp]
    exact h1

theorem bag_laws (f : NP → ℚ) (fin : List (NP × ℚ) → ℚ) (Dom : NP → Prop) (n : Nat) :
    Laws (bagFun f fin) (fun _ => True) Dom n (fun d ps => d.Perm ps) := by
  refine ⟨?_, ?_, ?_, ?_⟩
  · intro a b _ _ h
    have : a = b := by simpa [bagFun] using h
    rw [this]
  · intro ps _ _
    exact ⟨[], ps.reverse ++ [], rfl, bag_ins f fin ps [], by simp⟩
  · intro d qs o ps ps' ms _ ho M
    obtain ⟨rest, h1, h2⟩ := M.bag
    obtain ⟨d', e1, e2⟩ := bag_rem f fin (ms.map Mut.old) o rest (ho.trans h1)
    refine ⟨(ms.map Mut.new).reverse ++ d', ?_, ?_⟩
    · unfold applyMuts
      show ((ms.map Mut.old).foldlM (bagFun f fin).rem o).bind _ = _
      rw [e1, Option.bind_some]
      exact bag_ins f fin _ _
    · refine List.Perm.trans ?_ h2.symm
      exact (List.reverse_perm _).append e2
  · intro d ps _ k _
    exact ⟨trivial, f k, rfl⟩

end Verif.Alg

import Verif.Alg.Phase
import Mathlib.Algebra.BigOperators.Group.Finset.Basic
import Mathlib.Algebra.Order.BigOperators.Group.Finset
import Mathlib.Data.Fintype.Card

/-!
# Progress, termination and result of the concurrent evaluation
-/

namespace Verif.Alg

open Verif.Fit

variable {Dt K : Type} {F : Fun Dt K} {ok : K → Prop} {n : Nat} {pts : Nat → List NP} {muts : Nat → List Mut}
variable {s : Sys Dt K} {T : Nat → Dt} {V : Nat → ℚ} {p : Ph Dt K} {ch ar : List Nat}

/-- In a state that is not finished some goroutine can move. -/
theorem PInv.progress (hn : 0 < n) (I : PInv F ok n s T V p ch ar) (hf : ¬ p.Finished n) : ∃ w, Enabled n p w := by
  have hpc := I.pc
  unfold PCInv at hpc
  cases hp : p.pc with
  | sub k => exact ⟨.main, by unfold Enabled; simp only [hp]⟩
  | recv m =>
    rw [hp] at hpc
    simp only at hpc
    obtain ⟨_, hm, hb, _⟩ := hpc
    have harlt : ∀ i ∈ ar, i < n := by
      intro i hi
      obtain ⟨id, h⟩ := (I.arT i).mp hi
      exact I.lt (by rw [h]; simp)
    have hle : ar.length ≤ n := by
      have := (List.subperm_of_subset I.arN (fun i hi => List.mem_range.mpr (harlt i hi))).length_le
      simpa using this
    have hmn : m ≠ n := by
      rintro rfl
      exact hf ⟨hp, hn⟩
    obtain ⟨i, hi, hia⟩ : ∃ i, i < n ∧ i ∉ ar := by
      by_contra h
      push Not at h
      have := (List.subperm_of_subset (List.nodup_range (n := n)) (fun i hi => h i (List.mem_range.mp hi))).length_le
      simp at this
      omega
    have h1 := hb i hi
    cases ht : p.tasks i with
    | idle => exact absurd ht h1
    | ready id => exact ⟨.work i, by unfold Enabled; simp only [ht]⟩
    | loop id r old todo acc => exact ⟨.work i, by unfold Enabled; simp only [ht]⟩
    | done id v => exact ⟨.work i, by unfold Enabled; simp only [ht]⟩
    | sent id =>
      refine ⟨.main, ?_⟩
      unfold Enabled
      simp only [hp]
      refine ⟨by left; omega, ?_⟩
      rw [I.chan]
      have := (I.chT i).mpr ⟨id, ht⟩
      intro h
      rw [List.map_eq_nil_iff] at h
      rw [h] at this
      simp at this
    | received id => exact absurd ((I.arT i).mpr ⟨id, ht⟩) hia

/-- Moves left to a task. -/
def rank (F : Fun Dt K) (d : Dt) : Task K → Nat
  | .idle => (F.keys d).length + 4
  | .ready _ => (F.keys d).length + 3
  | .loop _ _ _ todo _ => todo.length + 2
  | .done .. => 1
  | .sent .. => 0
  | .received .. => 0

/-- Moves left to the main goroutine. -/
def mainRank (n : Nat) : PC → Nat
  | .sub k => (n - k) + 1 + n
  | .recv m => n - m

/-- An upper bound of the number of moves left. -/
def left (F : Fun Dt K) (n : Nat) (T : Nat → Dt) (p : Ph Dt K) : Nat := mainRank n p.pc + ∑ i ∈ Finset.range n, rank F (T i) (p.tasks i)

theorem sum_setTask (F : Fun Dt K) (T : Nat → Dt) (ts : Nat → Task K) {i : Nat} (hi : i < n) (t : Task K) :
    ∑ j ∈ Finset.range n, rank F (T j) (setTask ts i t j) + rank F (T i) (ts i) =
      ∑ j ∈ Finset.range n, rank F (T j) (ts j) + rank F (T i) t := by
  have hm : i ∈ Finset.range n := Finset.mem_range.mpr hi
  rw [← Finset.sum_erase_add _ _ hm, ← Finset.sum_erase_add (Finset.range n) (fun j => rank F (T j) (ts j)) hm]
  have : ∑ j ∈ (Finset.range n).erase i, rank F (T j) (setTask ts i t j) = ∑ j ∈ (Finset.range n).erase i, rank F (T j) (ts j) := by
    apply Finset.sum_congr rfl
    intro j hj
    have : j ≠ i := Finset.ne_of_mem_erase hj
    simp [setTask, this]
  rw [this, setTask_self]
  omega

/-- Every move uses up at least one of the moves left. -/
theorem PInv.decrease (H : PhaseOK F ok n pts muts s T V) (hn : 0 < n) (I : PInv F ok n s T V p ch ar) {w : Who} (hw : Enabled n p w) {q : Ph Dt K}
    (hq : Alg.move F n pts muts p w = some q) : left F n T q < left F n T p := by
  cases w with
  | work i =>
    unfold Enabled at hw
    unfold Alg.move at hq
    simp only at hw hq
    cases ht : p.tasks i with
    | idle => rw [ht] at hw; exact hw.elim
    | sent id => rw [ht] at hw; exact hw.elim
    | received id => rw [ht] at hw; exact hw.elim
    | ready id =>
      have hi := I.lt (i := i) (by rw [ht]; simp)
      have tI := I.task i hi
      unfold TaskInv at tI
      rw [ht] at tI hq
      obtain ⟨rfl, hf⟩ := tI
      simp only at hq
      rw [I.setup H hi hf] at hq
      cases hq
      have := sum_setTask (n := n) F T p.tasks hi (.loop (idAt s i) (p.sys.fns (idAt s i)).cache (p.sys.fns (idAt s i)).next (F.keys (T i)) [])
      rw [ht] at this
      unfold left
      simp only [rank] at this ⊢
      omega
    | loop id r old todo acc =>
      have hi := I.lt (i := i) (by rw [ht]; simp)
      rw [ht] at hq
      cases todo with
      | nil =>
        simp only [Option.some.injEq] at hq
        subst hq
        have := sum_setTask (n := n) F T p.tasks hi (.done id (F.fin acc))
        rw [ht] at this
        unfold left
        simp only [rank, List.length_nil] at this ⊢
        omega
      | cons key todo =>
        simp only at hq
        cases hx : keyStep F p.sys.bufs p.sys.k old (p.sys.fns id).next r key with
        | none => rw [hx] at hq; exact absurd hq (by simp)
        | some x =>
          rw [hx] at hq
          cases hq
          have := sum_setTask (n := n) F T p.tasks hi (.loop id r old todo (acc ++ [(key, x.1)]))
          rw [ht] at this
          unfold left
          simp only [rank, List.length_cons] at this ⊢
          omega
    | done id v =>
      have hi := I.lt (i := i) (by rw [ht]; simp)
      rw [ht] at hq
      simp only [Option.some.injEq] at hq
      subst hq
      have := sum_setTask (n := n) F T p.tasks hi (.sent id)
      rw [ht] at this
      unfold left
      simp only [rank] at this ⊢
      omega
  | main =>
    unfold Enabled at hw
    unfold Alg.move at hq
    simp only at hw hq
    have hpc := I.pc
    unfold PCInv at hpc
    cases hp : p.pc with
    | sub k =>
      rw [hp] at hpc hq
      simp only at hpc hq
      obtain ⟨a, b, c, d, e⟩ := hpc
      by_cases hk : k < n
      · rw [if_pos hk] at hq
        have hsl : p.sys.slots[k]? = some (idAt s k) := by rw [I.slots]; exact slots_idAt (by have := H.len; omega)
        rw [hsl] at hq
        cases hq
        have := sum_setTask (n := n) F T p.tasks hk (.ready (idAt s k))
        rw [e k le_rfl] at this
        unfold left
        rw [hp]
        simp only [rank, mainRank] at this ⊢
        omega
      · rw [if_neg hk] at hq
        cases hq
        unfold left
        rw [hp]
        simp only [mainRank]
        omega
    | recv m =>
      rw [hp] at hpc hw hq
      simp only at hpc hw hq
      cases hc : p.chan with
      | nil => exact absurd hc hw.2
      | cons x rest =>
        rw [hc] at hq
        obtain ⟨i, v⟩ := x
        simp only at hq
        have hich : i ∈ ch := by
          have h1 := I.chan
          rw [hc] at h1
          cases ch with
          | nil => simp at h1
          | cons j ch =>
            simp only [List.map_cons, List.cons.injEq, Prod.mk.injEq] at h1
            rw [h1.1.1]
            simp
        obtain ⟨id, ht⟩ := (I.chT i).mp hich
        have hi := I.lt (i := i) (by rw [ht]; simp)
        cases hu : update p.sys i with
        | none => rw [hu] at hq; exact absurd hq (by simp)
        | some s' =>
          rw [hu] at hq
          have hsl : p.sys.slots[i]? = some (idAt s i) := by rw [I.slots]; exact slots_idAt (by have := H.len; omega)
          rw [hsl] at hq
          cases hq
          have := sum_setTask (n := n) F T p.tasks hi (.received (idAt s i))
          rw [ht] at this
          unfold left
          rw [hp]
          simp only [rank, mainRank] at this ⊢
          omega

/-- A schedule is at most as long as the number of moves left at its start. -/
theorem PInv.bounded (H : PhaseOK F ok n pts muts s T V) (hn : 0 < n) {l : List Who} {q : Ph Dt K} (h : Run F n pts muts p l q) :
    ∀ {ch ar : List Nat}, PInv F ok n s T V p ch ar → l.length + left F n T q ≤ left F n T p := by
  induction h with
  | nil => intro ch ar I; simp
  | snoc w h he hm ih =>
    intro ch ar I
    obtain ⟨ch', ar', I'⟩ := I.run H h
    have := I'.decrease H hn he hm
    have := ih I
    simp only [List.length_append, List.length_cons, List.length_nil]
    omega

/-- From every state reached, some schedule finishes. -/
theorem PInv.finish (H : PhaseOK F ok n pts muts s T V) (hn : 0 < n) {p0 : Ph Dt K} {l : List Who} (h : Run F n pts muts p0 l p) (I : PInv F ok n s T V p ch ar) :
    ∃ l' q, Run F n pts muts p0 (l ++ l') q ∧ q.Finished n := by
  generalize hm : left F n T p = m
  induction m using Nat.strong_induction_on generalizing p l ch ar with
  | _ m ih =>
    by_cases hf : p.Finished n
    · exact ⟨[], p, by simpa using h, hf⟩
    · obtain ⟨w, hw⟩ := I.progress hn hf
      obtain ⟨q, ch', ar', hq, Iq⟩ := I.move H hw
      have hd := I.decrease H hn hw hq
      obtain ⟨l', r, hr, hfr⟩ := ih (left F n T q) (by omega) (h.snoc w hw hq) Iq rfl
      exact ⟨w :: l', r, by simpa using hr, hfr⟩

/-- What every finished run leaves behind. -/
structure PhaseDone (F : Fun Dt K) (ok : K → Prop) (n : Nat) (s : Sys Dt K) (T : Nat → Dt) (V : Nat → ℚ) (q : Ph Dt K) : Prop where
  slots : q.sys.slots = s.slots
  k : q.sys.k = s.k
  cur : q.sys.cur = !s.cur
  bufs : ∀ b x e, q.sys.bufs b x = some e → Good F ok s.k e
  other : ∀ id, (∀ i < n, id ≠ idAt s i) → q.sys.fns id = s.fns id
  fns : ∀ i < n, Ready F ok s.k (T i) (q.sys.fns (idAt s i)) ∧ (q.sys.fns (idAt s i)).cache = .shared (!s.cur)
  arr : ∃ ar : List Nat, ar.Perm (List.range n) ∧ q.arr = ar.map fun i => (i, V i)
  chan : q.chan = []
  tasks : ∀ i < n, ∃ id, q.tasks i = .received id
  quiet : ∀ w, ¬ Enabled n q w

theorem PInv.done (I : PInv F ok n s T V p ch ar) (hf : p.Finished n) : PhaseDone F ok n s T V p := by
  have hpc := I.pc
  unfold PCInv at hpc
  rw [hf.1] at hpc
  simp only at hpc
  obtain ⟨h1, h2, h3, h4⟩ := hpc
  have harlt : ∀ i ∈ ar, i < n := by
    intro i hi
    obtain ⟨id, h⟩ := (I.arT i).mp hi
    exact I.lt (by rw [h]; simp)
  have hperm : ar.Perm (List.range n) := by
    have h := List.subperm_of_subset I.arN (fun i hi => List.mem_range.mpr (harlt i hi))
    exact h.perm_of_length_le (by simp [h2])
  have hrec : ∀ i < n, ∃ id, p.tasks i = .received id := fun i hi => (I.arT i).mp (hperm.mem_iff.mpr (List.mem_range.mpr hi))
  have hch : ch = [] := by
    cases ch with
    | nil => rfl
    | cons i ch =>
      obtain ⟨id, h⟩ := (I.chT i).mp (by simp)
      have hi := I.lt (i := i) (by rw [h]; simp)
      obtain ⟨id', h'⟩ := hrec i hi
      rw [h] at h'
      cases h'
  refine ⟨I.slots, I.k, h1, I.bufs, I.other, ?_, ⟨ar, hperm, I.arr⟩, by rw [I.chan, hch]; rfl, hrec, ?_⟩
  · intro i hi
    obtain ⟨id, h⟩ := hrec i hi
    have := I.task i hi
    unfold TaskInv at this
    rw [h] at this
    obtain ⟨rfl, a, b⟩ := this
    exact ⟨a, b⟩
  · intro w
    cases w with
    | main =>
      unfold Enabled
      rw [hf.1, I.chan, hch]
      simp
    | work i =>
      unfold Enabled
      by_cases hi : i < n
      · obtain ⟨id, h⟩ := hrec i hi
        simp [h]
      · simp [h4 i (by omega)]

/-- Every finished schedule from a good start leaves what `PhaseDone` says. -/
theorem phase_done (H : PhaseOK F ok n pts muts s T V) {l : List Who} {q : Ph Dt K} (h : Run F n pts muts (Ph.start s) l q) (hf : q.Finished n) :
    PhaseDone F ok n s T V q := by
  obtain ⟨ch, ar, I⟩ := (PInv.start H).run H h
  exact I.done hf

/-- Some schedule finishes. -/
theorem phase_exists (H : PhaseOK F ok n pts muts s T V) (hn : 0 < n) : ∃ l q, Run F n pts muts (Ph.start s) l q ∧ q.Finished n := by
  obtain ⟨l, q, h, hf⟩ := (PInv.start H).finish H hn (Run.nil _)
  exact ⟨_, q, h, hf⟩

end Verif.Alg

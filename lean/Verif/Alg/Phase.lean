import Verif.Alg.Calls
import Verif.Alg.Laws
import Mathlib.Data.List.Nodup

/-!
# The concurrent evaluation of a generation
-/

namespace Verif.Alg

open Verif.Fit

variable {Dt K : Type} {F : Fun Dt K} {ok : K → Prop} {n : Nat} {pts : Nat → List NP} {muts : Nat → List Mut}

/-- A valid entry whose index is in range. -/
def Good (F : Fun Dt K) (ok : K → Prop) (k : Nat) (e : Entry K) : Prop := e.hash < 2 ^ k ∧ Valid F ok e

/-- The identity of the function of member `i`. -/
def idAt (s : Sys Dt K) (i : Nat) : Nat := s.slots.getD i 0

theorem idAt_eq {s : Sys Dt K} {i id : Nat} (h : s.slots[i]? = some id) : idAt s i = id := by
  unfold idAt; rw [List.getD_eq_getElem?_getD, h]; rfl

theorem slots_idAt {s : Sys Dt K} {i : Nat} (h : i < s.slots.length) : s.slots[i]? = some (idAt s i) := by
  unfold idAt; rw [List.getD_eq_getElem?_getD, List.getElem?_eq_getElem h]; rfl

theorem idAt_inj {s : Sys Dt K} (hn : s.slots.Nodup) {i j : Nat} (hi : i < s.slots.length) (hj : j < s.slots.length) (h : idAt s i = idAt s j) : i = j := by
  have a := slots_idAt hi
  have b := slots_idAt hj
  rw [List.getElem?_eq_getElem hi, Option.some.injEq] at a
  rw [List.getElem?_eq_getElem hj, Option.some.injEq] at b
  exact (hn.getElem_inj_iff).mp (a.trans (h.trans b.symm))

/-- What `calculateFitnesses` needs at its start: distinct functions; no member reads the cache array that will be written;
a base has a triangulation and is not to be changed itself; the expected triangulations `T i` and fitnesses `V i` of all
tasks are defined. -/
structure PhaseOK (F : Fun Dt K) (ok : K → Prop) (n : Nat) (pts : Nat → List NP) (muts : Nat → List Mut) (s : Sys Dt K)
    (T : Nat → Dt) (V : Nat → ℚ) : Prop where
  same : SameOK F ok
  nodup : s.slots.Nodup
  len : n ≤ s.slots.length
  k : 1 ≤ s.k
  bufs : ∀ b x e, s.bufs b x = some e → Good F ok s.k e
  cache : ∀ i < n, (s.fns (idAt s i)).cache = .fresh ∨ (s.fns (idAt s i)).cache = .shared s.cur
  base : ∀ i < n, ∀ b, (s.fns (idAt s i)).base = some b → ∃ d, (s.fns b).tri = some d ∧ (s.fns b).base = none
  target : ∀ i < n, setup F (s.fns (idAt s i)) (fun b => (s.fns b).tri) (pts i) (muts i) = some (T i)
  keys : ∀ i < n, ∀ key ∈ F.keys (T i), ok key ∧ ∃ v, F.val key = some v
  val : ∀ i < n, plain F (T i) = some (V i)

/-- A function whose `Calculate` is past its set-up. -/
structure Ready (F : Fun Dt K) (ok : K → Prop) (k : Nat) (d : Dt) (fn : Fn Dt K) : Prop where
  tri : fn.tri = some d
  base : fn.base = none
  next : ∀ e ∈ fn.next, Good F ok k e

/-- The invariant of one task. -/
def TaskInv (F : Fun Dt K) (ok : K → Prop) (s : Sys Dt K) (T : Nat → Dt) (V : Nat → ℚ) (p : Ph Dt K) (i : Nat) : Prop :=
  match p.tasks i with
  | .idle => p.sys.fns (idAt s i) = s.fns (idAt s i)
  | .ready id => id = idAt s i ∧ p.sys.fns id = s.fns id
  | .loop id r _ todo acc => id = idAt s i ∧ r = (s.fns id).cache ∧ Ready F ok s.k (T i) (p.sys.fns id) ∧
      (p.sys.fns id).cache = (s.fns id).cache ∧ ∃ ks, F.keys (T i) = ks ++ todo ∧ vals F ks = some acc
  | .done id v => id = idAt s i ∧ Ready F ok s.k (T i) (p.sys.fns id) ∧ (p.sys.fns id).cache = .own ∧ v = V i
  | .sent id => id = idAt s i ∧ Ready F ok s.k (T i) (p.sys.fns id) ∧ (p.sys.fns id).cache = .own
  | .received id => id = idAt s i ∧ Ready F ok s.k (T i) (p.sys.fns id) ∧ (p.sys.fns id).cache = .shared (!s.cur)

/-- Position of the main goroutine. -/
def PCInv (s : Sys Dt K) (n : Nat) (p : Ph Dt K) (ar : List Nat) : Prop :=
  match p.pc with
  | .sub k => k ≤ n ∧ p.sys.cur = s.cur ∧ ar = [] ∧ (∀ i < k, p.tasks i ≠ .idle) ∧ ∀ i, k ≤ i → p.tasks i = .idle
  | .recv m => p.sys.cur = (!s.cur) ∧ ar.length = m ∧ (∀ i < n, p.tasks i ≠ .idle) ∧ ∀ i, n ≤ i → p.tasks i = .idle

/-- The invariant of `calculateFitnesses`. -/
structure PInv (F : Fun Dt K) (ok : K → Prop) (n : Nat) (s : Sys Dt K) (T : Nat → Dt) (V : Nat → ℚ) (p : Ph Dt K) (ch ar : List Nat) : Prop where
  slots : p.sys.slots = s.slots
  k : p.sys.k = s.k
  bufOld : ∀ x, p.sys.bufs s.cur x = s.bufs s.cur x
  bufs : ∀ b x e, p.sys.bufs b x = some e → Good F ok s.k e
  other : ∀ id, (∀ i < n, id ≠ idAt s i) → p.sys.fns id = s.fns id
  task : ∀ i < n, TaskInv F ok s T V p i
  pc : PCInv s n p ar
  chan : p.chan = ch.map fun i => (i, V i)
  arr : p.arr = ar.map fun i => (i, V i)
  chN : ch.Nodup
  arN : ar.Nodup
  chT : ∀ i, i ∈ ch ↔ ∃ id, p.tasks i = .sent id
  arT : ∀ i, i ∈ ar ↔ ∃ id, p.tasks i = .received id

variable {s : Sys Dt K} {T : Nat → Dt} {V : Nat → ℚ} {p : Ph Dt K} {ch ar : List Nat}

theorem PInv.start (h : PhaseOK F ok n pts muts s T V) : PInv F ok n s T V (Ph.start s) [] [] := by
  refine ⟨rfl, rfl, fun _ => rfl, h.bufs, fun _ _ => rfl, fun i _ => ?_, ?_, rfl, rfl, by simp, by simp, ?_, ?_⟩
  · show TaskInv F ok s T V (Ph.start s) i
    unfold TaskInv Ph.start
    rfl
  · unfold PCInv Ph.start
    simp
  · intro i; simp [Ph.start]
  · intro i; simp [Ph.start]

/-- Tasks at or beyond `n` are never submitted. -/
theorem PInv.idle (I : PInv F ok n s T V p ch ar) {i : Nat} (hi : n ≤ i) : p.tasks i = .idle := by
  have := I.pc
  unfold PCInv at this
  split at this
  · exact this.2.2.2.2 i (this.1.trans hi)
  · exact this.2.2.2 i hi

theorem PInv.lt (I : PInv F ok n s T V p ch ar) {i : Nat} (hi : p.tasks i ≠ .idle) : i < n := by
  by_contra h
  exact hi (I.idle (by omega))

/-- A base keeps its triangulation. -/
theorem PInv.baseTri (H : PhaseOK F ok n pts muts s T V) (I : PInv F ok n s T V p ch ar) {b : Nat} {d : Dt} (hd : (s.fns b).tri = some d)
    (hb : (s.fns b).base = none) : (p.sys.fns b).tri = some d := by
  by_cases hn : ∀ i < n, b ≠ idAt s i
  · rw [I.other b hn]; exact hd
  · push Not at hn
    obtain ⟨i, hi, rfl⟩ := hn
    have hT : T i = d := by
      have := H.target i hi
      unfold setup at this
      rw [hd, hb] at this
      simpa using this.symm
    have := I.task i hi
    unfold TaskInv at this
    split at this
    · rw [this]; exact hd
    · obtain ⟨rfl, h⟩ := this; rw [h]; exact hd
    · obtain ⟨rfl, _, R, _⟩ := this; rw [R.tri, hT]
    · obtain ⟨rfl, R, _⟩ := this; rw [R.tri, hT]
    · obtain ⟨rfl, R, _⟩ := this; rw [R.tri, hT]
    · obtain ⟨rfl, R, _⟩ := this; rw [R.tri, hT]

/-- The set-up gives the expected triangulation whenever it runs. -/
theorem PInv.setup (H : PhaseOK F ok n pts muts s T V) (I : PInv F ok n s T V p ch ar) {i : Nat} (hi : i < n)
    (hf : p.sys.fns (idAt s i) = s.fns (idAt s i)) :
    Alg.setup F (p.sys.fns (idAt s i)) (fun b => (p.sys.fns b).tri) (pts i) (muts i) = some (T i) := by
  rw [hf, ← H.target i hi]
  unfold Alg.setup
  cases (s.fns (idAt s i)).tri with
  | none => rfl
  | some d =>
    simp only
    cases hb : (s.fns (idAt s i)).base with
    | none => rfl
    | some b =>
      obtain ⟨d', h1, h2⟩ := H.base i hi b hb
      simp only
      rw [I.baseTri H h1 h2, h1]

/-- Changing one task and its function keeps the invariants of the other tasks. -/
theorem TaskInv.frame {p q : Ph Dt K} (hn : s.slots.Nodup) (hl : n ≤ s.slots.length) {i j : Nat} (hi : i < n) (hj : j < n) (hij : j ≠ i)
    (hf : ∀ id, id ≠ idAt s i → q.sys.fns id = p.sys.fns id) (ht : q.tasks j = p.tasks j) (h : TaskInv F ok s T V p j) : TaskInv F ok s T V q j := by
  have hne : idAt s j ≠ idAt s i := fun e => hij (idAt_inj hn (by omega) (by omega) e)
  unfold TaskInv at h ⊢
  rw [ht]
  have e := hf _ hne
  split <;> rename_i he <;> rw [he] at h
  · rw [e]; exact h
  · obtain ⟨rfl, h⟩ := h; exact ⟨rfl, by rw [e]; exact h⟩
  · obtain ⟨rfl, h⟩ := h; exact ⟨rfl, by rw [e]; exact h⟩
  · obtain ⟨rfl, h⟩ := h; exact ⟨rfl, by rw [e]; exact h⟩
  · obtain ⟨rfl, h⟩ := h; exact ⟨rfl, by rw [e]; exact h⟩
  · obtain ⟨rfl, h⟩ := h; exact ⟨rfl, by rw [e]; exact h⟩

/-- A worker's step that is neither a send nor a receive keeps the whole invariant. -/
theorem PInv.worker (H : PhaseOK F ok n pts muts s T V) (I : PInv F ok n s T V p ch ar) {i : Nat} (hi : i < n) {fn : Fn Dt K} {t : Task K}
    (h0 : p.tasks i ≠ .idle) (h1 : ∀ id, p.tasks i ≠ .sent id) (h2 : ∀ id, p.tasks i ≠ .received id)
    (t0 : t ≠ .idle) (t1 : ∀ id, t ≠ .sent id) (t2 : ∀ id, t ≠ .received id)
    (ht : TaskInv F ok s T V { p with sys := setFn p.sys (idAt s i) fn, tasks := setTask p.tasks i t } i) :
    PInv F ok n s T V { p with sys := setFn p.sys (idAt s i) fn, tasks := setTask p.tasks i t } ch ar := by
  refine ⟨I.slots, I.k, I.bufOld, I.bufs, ?_, ?_, ?_, I.chan, I.arr, I.chN, I.arN, ?_, ?_⟩
  · intro id hid
    have : (setFn p.sys (idAt s i) fn).fns id = p.sys.fns id := by simp [setFn, hid i hi]
    rw [this]
    exact I.other id hid
  · intro j hj
    by_cases hji : j = i
    · subst hji; exact ht
    · refine TaskInv.frame H.nodup H.len hi hj hji ?_ ?_ (I.task j hj)
      · intro id hid; simp [setFn, hid]
      · simp [setTask, hji]
  · have := I.pc
    unfold PCInv at this ⊢
    simp only at this ⊢
    have hne : ∀ j, setTask p.tasks i t j = .idle ↔ p.tasks j = .idle := by
      intro j
      unfold setTask
      split
      · rename_i h; subst h; simp [t0, h0]
      · rfl
    split at this
    · obtain ⟨a, b, c, d, e⟩ := this
      exact ⟨a, b, c, fun j hj => fun h => d j hj ((hne j).mp h), fun j hj => (hne j).mpr (e j hj)⟩
    · obtain ⟨b, c, d, e⟩ := this
      exact ⟨b, c, fun j hj => fun h => d j hj ((hne j).mp h), fun j hj => (hne j).mpr (e j hj)⟩
  · intro j
    rw [I.chT j]
    simp only [setTask]
    split
    · rename_i h; subst h; simp [h1, t1]
    · rfl
  · intro j
    rw [I.arT j]
    simp only [setTask]
    split
    · rename_i h; subst h; simp [h2, t2]
    · rfl

theorem setTask_self {ts : Nat → Task K} {i : Nat} {t : Task K} : setTask ts i t i = t := by simp [setTask]

theorem setFn_self {s : Sys Dt K} {id : Nat} {fn : Fn Dt K} : (setFn s id fn).fns id = fn := by simp [setFn]

theorem vals_split {ks : List K} {l : List (K × ℚ)} {key : K} {v : ℚ} (h : vals F ks = some l) (hv : F.val key = some v) :
    vals F (ks ++ [key]) = some (l ++ [(key, v)]) :=
  vals_append ks [key] h (by rw [vals_cons, hv]; rfl)

/-- `Update` of a function whose cache is its own list of good entries. -/
theorem update_good {s : Sys Dt K} {k : Nat} (hk : s.k = k) {i id : Nat} (hid : s.slots[i]? = some id) (hc : (s.fns id).cache = .own)
    (hn : ∀ e ∈ (s.fns id).next, Good F ok k e) (hb : ∀ b x e, s.bufs b x = some e → Good F ok k e) :
    ∃ buf, update s i = some { setFn s id { s.fns id with cache := .shared s.cur } with bufs := fun b => if b = s.cur then buf else s.bufs b } ∧
      ∀ x e, buf x = some e → Good F ok k e := by
  obtain ⟨buf, h1, h2⟩ := putAll (k := s.k) (P := Good F ok k) (s.fns id).next (s.bufs s.cur) (fun e he => ⟨by rw [hk]; exact (hn e he).1, hn e he⟩)
    (fun x e => hb _ x e)
  refine ⟨buf, ?_, h2⟩
  unfold update
  rw [hid]
  simp only [Option.bind_eq_bind, Option.bind_some]
  have : cacheOf s (s.fns id) = (s.fns id).next.map some := by unfold cacheOf; rw [hc]
  rw [this, h1]
  rfl

/-- Every enabled move succeeds and keeps the invariant. -/
theorem PInv.move (H : PhaseOK F ok n pts muts s T V) (I : PInv F ok n s T V p ch ar) {w : Who} (hw : Enabled n p w) :
    ∃ q ch' ar', move F n pts muts p w = some q ∧ PInv F ok n s T V q ch' ar' := by
  cases w with
  | work i =>
    unfold Enabled at hw
    unfold Alg.move
    simp only at hw ⊢
    cases ht : p.tasks i with
    | idle => rw [ht] at hw; exact hw.elim
    | sent id => rw [ht] at hw; exact hw.elim
    | received id => rw [ht] at hw; exact hw.elim
    | ready id =>
      have hi := I.lt (i := i) (by rw [ht]; simp)
      have tI := I.task i hi
      unfold TaskInv at tI
      rw [ht] at tI
      obtain ⟨rfl, hf⟩ := tI
      simp only
      rw [I.setup H hi hf]
      refine ⟨_, ch, ar, rfl, I.worker H hi (by rw [ht]; simp) (by rw [ht]; simp) (by rw [ht]; simp) (by simp) (by simp) (by simp) ?_⟩
      unfold TaskInv
      simp only [setTask_self, setFn_self, true_and]
      refine ⟨by rw [hf], ⟨rfl, rfl, by simp⟩, by rw [hf], [], by simp, rfl⟩
    | loop id r old todo acc =>
      have hi := I.lt (i := i) (by rw [ht]; simp)
      have tI := I.task i hi
      unfold TaskInv at tI
      rw [ht] at tI
      obtain ⟨rfl, hr, R, hc, ks, hks, hv⟩ := tI
      cases todo with
      | nil =>
        refine ⟨_, ch, ar, rfl, I.worker H hi (by rw [ht]; simp) (by rw [ht]; simp) (by rw [ht]; simp) (by simp) (by simp) (by simp) ?_⟩
        unfold TaskInv
        simp only [setTask_self, setFn_self, true_and]
        refine ⟨⟨R.tri, R.base, R.next⟩, ?_⟩
        have := H.val i hi
        rw [List.append_nil] at hks
        unfold plain at this
        rw [hks, hv] at this
        simpa using this
      | cons key todo =>
        have hr' : r ≠ .own := by
          rw [hr]
          rcases H.cache i hi with h | h <;> rw [h] <;> simp
        obtain ⟨okk, v, hkv⟩ := H.keys i hi key (by rw [hks]; simp)
        obtain ⟨x, hx⟩ := keyStep_some (F := F) (bufs := p.sys.bufs) (out := (p.sys.fns (idAt s i)).next)
          (refLen_index (k := p.sys.k) (old := old) hr' (F.hash key)) hkv
        have RO : ReadOK F ok p.sys.bufs old (p.sys.fns (idAt s i)).next r :=
          ⟨fun b _ x e he => (I.bufs b x e he).2, fun h => absurd h hr', fun e he => (R.next e he).2⟩
        obtain ⟨v1, v2⟩ := keyStep_valid H.same RO okk hx
        have v3 := keyStep_range (by rw [I.k]; exact H.k) hr' (fun b x e he => by rw [I.k]; exact (I.bufs b x e he).1) hx
        rw [I.k] at v3
        simp only
        rw [hx]
        refine ⟨_, ch, ar, rfl, I.worker H hi (by rw [ht]; simp) (by rw [ht]; simp) (by rw [ht]; simp) (by simp) (by simp) (by simp) ?_⟩
        unfold TaskInv
        simp only [setTask_self, setFn_self, true_and]
        refine ⟨hr, ⟨R.tri, R.base, ?_⟩, hc, ks ++ [key], by rw [hks]; simp, vals_split hv v1⟩
        intro e he
        rcases List.mem_append.mp he with h | h
        · exact R.next e h
        · simp only [List.mem_singleton] at h
          subst h
          exact ⟨v3, v2⟩
    | done id v =>
      have hi := I.lt (i := i) (by rw [ht]; simp)
      have tI := I.task i hi
      unfold TaskInv at tI
      rw [ht] at tI
      obtain ⟨rfl, R, hc, rfl⟩ := tI
      refine ⟨_, ch ++ [i], ar, rfl, ?_⟩
      have hich : i ∉ ch := by rw [I.chT i, ht]; simp
      refine ⟨I.slots, I.k, I.bufOld, I.bufs, I.other, ?_, ?_, by simp [I.chan], I.arr, ?_, I.arN, ?_, ?_⟩
      · intro j hj
        by_cases hji : j = i
        · subst hji
          unfold TaskInv
          simp only [setTask_self, true_and]
          exact ⟨R, hc⟩
        · exact TaskInv.frame (p := p) H.nodup H.len hi hj hji (fun _ _ => rfl) (by simp [setTask, hji]) (I.task j hj)
      · have := I.pc
        unfold PCInv at this ⊢
        simp only at this ⊢
        have hne : ∀ j, setTask p.tasks i (.sent (idAt s i)) j = .idle ↔ p.tasks j = .idle := by
          intro j
          unfold setTask
          split
          · rename_i h; subst h; simp [ht]
          · rfl
        split at this
        · obtain ⟨a, b, c, d, e⟩ := this
          exact ⟨a, b, c, fun j hj => fun h => d j hj ((hne j).mp h), fun j hj => (hne j).mpr (e j hj)⟩
        · obtain ⟨b, c, d, e⟩ := this
          exact ⟨b, c, fun j hj => fun h => d j hj ((hne j).mp h), fun j hj => (hne j).mpr (e j hj)⟩
      · rw [List.nodup_append]
        exact ⟨I.chN, by simp, by intro a ha b hb; simp at hb; subst hb; rintro rfl; exact hich ha⟩
      · intro j
        rw [List.mem_append, I.chT j]
        simp only [setTask, List.mem_singleton]
        split
        · rename_i h; subst h; simp
        · rename_i h; simp [h]
      · intro j
        rw [I.arT j]
        simp only [setTask]
        split
        · rename_i h; subst h; simp [ht]
        · rfl
  | main =>
    unfold Enabled at hw
    unfold Alg.move
    simp only at hw ⊢
    have hpc := I.pc
    unfold PCInv at hpc
    cases hp : p.pc with
    | sub k =>
      rw [hp] at hpc
      simp only at hpc ⊢
      obtain ⟨a, b, c, d, e⟩ := hpc
      subst c
      by_cases hk : k < n
      · rw [if_pos hk]
        have hsl : p.sys.slots[k]? = some (idAt s k) := by rw [I.slots]; exact slots_idAt (by have := H.len; omega)
        have hidle := e k le_rfl
        rw [hsl]
        refine ⟨_, ch, [], rfl, I.slots, I.k, I.bufOld, I.bufs, I.other, ?_, ?_, I.chan, I.arr, I.chN, I.arN, ?_, ?_⟩
        · intro j hj
          by_cases hji : j = k
          · subst hji
            have tI := I.task j hj
            unfold TaskInv at tI ⊢
            rw [hidle] at tI
            simp only [setTask_self, true_and]
            exact tI
          · exact TaskInv.frame (p := p) H.nodup H.len hk hj hji (fun _ _ => rfl) (by simp [setTask, hji]) (I.task j hj)
        · unfold PCInv
          simp only
          refine ⟨by omega, b, trivial, ?_, ?_⟩
          · intro j hj
            unfold setTask
            split
            · simp
            · exact d j (by omega)
          · intro j hj
            unfold setTask
            rw [if_neg (by omega)]
            exact e j (by omega)
        · intro j
          rw [I.chT j]
          simp only [setTask]
          split
          · rename_i h; subst h; simp [hidle]
          · rfl
        · intro j
          rw [I.arT j]
          simp only [setTask]
          split
          · rename_i h; subst h; simp [hidle]
          · rfl
      · rw [if_neg hk]
        have hkn : k = n := by omega
        subst hkn
        refine ⟨_, ch, [], rfl, I.slots, I.k, I.bufOld, I.bufs, I.other, ?_, ?_, I.chan, I.arr, I.chN, I.arN, I.chT, I.arT⟩
        · intro j hj
          exact I.task j hj
        · unfold PCInv
          simp only [prepare, List.length_nil, true_and]
          exact ⟨by rw [b], d, e⟩
    | recv m =>
      rw [hp] at hpc hw
      simp only at hpc hw ⊢
      obtain ⟨b, c, d, e⟩ := hpc
      cases ch with
      | nil => exact absurd I.chan (by simpa using hw.2)
      | cons i ch =>
        have hch := I.chan
        simp only [List.map_cons] at hch
        rw [hch]
        simp only
        obtain ⟨id, ht⟩ := (I.chT i).mp (by simp)
        have hi := I.lt (i := i) (by rw [ht]; simp)
        have tI := I.task i hi
        unfold TaskInv at tI
        rw [ht] at tI
        obtain ⟨rfl, R, hc⟩ := tI
        have hsl : p.sys.slots[i]? = some (idAt s i) := by rw [I.slots]; exact slots_idAt (by have := H.len; omega)
        obtain ⟨buf, hu, hbuf⟩ := update_good (F := F) (ok := ok) (s := p.sys) I.k hsl hc R.next I.bufs
        rw [hu, hsl]
        simp only [Option.bind_eq_bind, Option.bind_some]
        have hiar : i ∉ ar := by rw [I.arT i, ht]; simp
        have hcn := List.nodup_cons.mp I.chN
        refine ⟨_, ch, ar ++ [i], rfl, I.slots, I.k, ?_, ?_, ?_, ?_, ?_, rfl, by simp [I.arr], hcn.2, ?_, ?_, ?_⟩
        · intro x
          simp only [b]
          rw [if_neg (by cases s.cur <;> simp)]
          exact I.bufOld x
        · intro b' x e' he'
          simp only at he'
          split at he'
          · exact hbuf x e' he'
          · exact I.bufs b' x e' he'
        · intro id hid
          have : id ≠ idAt s i := hid i hi
          simp only [setFn, this, if_false]
          exact I.other id hid
        · intro j hj
          by_cases hji : j = i
          · subst hji
            unfold TaskInv
            simp only [setTask_self, setFn_self, true_and]
            exact ⟨⟨R.tri, R.base, R.next⟩, by rw [b]⟩
          · refine TaskInv.frame H.nodup H.len hi hj hji ?_ (by simp [setTask, hji]) (I.task j hj)
            intro id hid
            simp [setFn, hid]
        · unfold PCInv
          simp only
          refine ⟨b, by simp [c], ?_, ?_⟩
          · intro j hj
            unfold setTask
            split
            · simp
            · exact d j hj
          · intro j hj
            unfold setTask
            rw [if_neg (by omega)]
            exact e j hj
        · rw [List.nodup_append]
          exact ⟨I.arN, by simp, by intro a ha b hb; simp at hb; subst hb; rintro rfl; exact hiar ha⟩
        · intro j
          have := I.chT j
          simp only [setTask]
          split
          · rename_i h; subst h; simp [hcn.1]
          · rename_i h
            rw [← this]
            simp [h]
        · intro j
          rw [List.mem_append, I.arT j]
          simp only [setTask, List.mem_singleton]
          split
          · rename_i h; subst h; simp
          · rename_i h; simp [h]

/-- The invariant holds in every state a schedule can reach. -/
theorem PInv.run (H : PhaseOK F ok n pts muts s T V) {l : List Who} {q : Ph Dt K} (h : Run F n pts muts p l q) :
    ∀ {ch ar : List Nat}, PInv F ok n s T V p ch ar → ∃ ch' ar', PInv F ok n s T V q ch' ar' := by
  induction h with
  | nil => intro ch ar I; exact ⟨ch, ar, I⟩
  | snoc w _ he hm ih =>
    intro ch ar I
    obtain ⟨ch', ar', I'⟩ := ih I
    obtain ⟨q, c, a, hq, Iq⟩ := I'.move H he
    rw [hm] at hq
    cases hq
    exact ⟨c, a, Iq⟩

end Verif.Alg

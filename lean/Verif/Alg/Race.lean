import Verif.Alg.PhaseEnd
import Mathlib.Data.Set.Insert

/-!
# Memory accesses of the goroutines

The mutable memory the goroutines of `calculateFitnesses` share, and which parts of it each move reads and writes.
-/

namespace Verif.Alg

open Verif.Fit

variable {Dt K : Type} {F : Fun Dt K} {ok : K → Prop} {n : Nat} {pts : Nat → List NP} {muts : Nat → List Mut}
variable {s : Sys Dt K} {T : Nat → Dt} {V : Nat → ℚ} {p : Ph Dt K} {ch ar : List Nat}

/-- The shared memory: of a fitness function (triangles.go 16-36) its triangulation (pointer and object), `Base`, the slice header
`TriangleCache` and the slice `nextCache`; of the evaluator (parallel.go 10-15) the elements of the two cache arrays, the
elements of `evaluators`, and the fields `cache`, `nextCache`. -/
inductive Loc where
  | tri (id : Nat)
  | base (id : Nat)
  | cache (id : Nat)
  | next (id : Nat)
  | cell (b : Bool) (x : Nat)
  | slot (i : Nat)
  | cur
deriving DecidableEq

/-- Two states agree on a location. -/
def AgreeAt (p q : Ph Dt K) : Loc → Prop
  | .tri id => (p.sys.fns id).tri = (q.sys.fns id).tri
  | .base id => (p.sys.fns id).base = (q.sys.fns id).base
  | .cache id => (p.sys.fns id).cache = (q.sys.fns id).cache
  | .next id => (p.sys.fns id).next = (q.sys.fns id).next
  | .cell b x => p.sys.bufs b x = q.sys.bufs b x
  | .slot i => p.sys.slots[i]? = q.sys.slots[i]?
  | .cur => p.sys.cur = q.sys.cur

/-- The locations a move reads: simple.go 57-83, triangles.go 39-160, parallel.go 17-34. -/
def reads (F : Fun Dt K) (n : Nat) (p : Ph Dt K) : Who → Set Loc
  | .work i =>
    match p.tasks i with
    | .ready id => {.tri id, .base id, .cache id, .next id} ∪ {l | ∃ b, (p.sys.fns id).base = some b ∧ l = .tri b}
    | .loop id r _ (key :: _) _ => {.tri id, .next id} ∪ {l | ∃ b, r = .shared b ∧ l = .cell b (indexOf (F.hash key) (2 ^ p.sys.k))}
    | .loop id _ _ [] _ => {.next id}
    | _ => ∅
  | .main =>
    match p.pc with
    | .sub k => if k < n then {.slot k} else {.cur}
    | .recv _ =>
      match p.chan with
      | [] => ∅
      | (i, _) :: _ => {.slot i, .cur} ∪ {l | ∃ id, p.sys.slots[i]? = some id ∧ (l = .cache id ∨ l = .next id ∨
          ∃ b x, (p.sys.fns id).cache = .shared b ∧ l = .cell b x)}

/-- The locations a move may write. -/
def writes (n : Nat) (p : Ph Dt K) : Who → Set Loc
  | .work i =>
    match p.tasks i with
    | .ready id => {.base id, .next id} ∪ {l | ((p.sys.fns id).tri = none ∨ (p.sys.fns id).base ≠ none) ∧ l = .tri id}
    | .loop id _ _ (_ :: _) _ => {.next id}
    | .loop id _ _ [] _ => {.cache id}
    | _ => ∅
  | .main =>
    match p.pc with
    | .sub k => if k < n then ∅ else {.cur}
    | .recv _ =>
      match p.chan with
      | [] => ∅
      | (i, _) :: _ => {l | ∃ id, p.sys.slots[i]? = some id ∧
          (l = .cache id ∨ ∃ e, some e ∈ cacheOf p.sys (p.sys.fns id) ∧ l = .cell p.sys.cur e.hash)}

/-- Two goroutines are about to access the same location, one of them for writing. -/
def Race (F : Fun Dt K) (n : Nat) (p : Ph Dt K) : Prop :=
  ∃ w w', w ≠ w' ∧ Enabled n p w ∧ Enabled n p w' ∧ ∃ l ∈ writes n p w, l ∈ reads F n p w' ∨ l ∈ writes n p w'

/-- What storing a list of entries does: only the cells of their hashes change, and they do not depend on the array before. -/
theorem putAll_cells {k : Nat} : ∀ (l : List (Option (Entry K))) {a a' : Nat → Option (Entry K)}, l.foldlM (putEntry k) a = some a' →
    (∀ x, (∀ e, some e ∈ l → e.hash ≠ x) → a' x = a x) ∧
    ∀ c : Nat → Option (Entry K), ∃ c', l.foldlM (putEntry k) c = some c' ∧ ∀ x, (a x = c x ∨ ∃ e, some e ∈ l ∧ e.hash = x) → a' x = c' x := by
  intro l
  induction l with
  | nil =>
    intro a a' h
    simp only [List.foldlM_nil, Option.pure_def, Option.some.injEq] at h
    subst h
    refine ⟨fun _ _ => rfl, fun c => ⟨c, rfl, ?_⟩⟩
    rintro x (h | ⟨e, h, _⟩)
    · exact h
    · simp at h
  | cons o l ih =>
    intro a a' h
    rw [List.foldlM_cons] at h
    cases o with
    | none => simp [putEntry] at h
    | some e =>
      by_cases he : e.hash < 2 ^ k
      · have hp : ∀ c : Nat → Option (Entry K), putEntry k c (some e) = some (fun x => if x = e.hash then some e else c x) := by
          intro c; simp [putEntry, he]
        rw [hp] at h
        simp only [Option.bind_eq_bind, Option.bind_some] at h
        obtain ⟨h1, h2⟩ := ih h
        refine ⟨?_, ?_⟩
        · intro x hx
          rw [h1 x (fun e' he' => hx e' (List.mem_cons_of_mem _ he'))]
          have : x ≠ e.hash := fun hh => hx e (by simp) hh.symm
          simp [this]
        · intro c
          obtain ⟨c', h3, h4⟩ := h2 (fun x => if x = e.hash then some e else c x)
          refine ⟨c', by rw [List.foldlM_cons, hp]; exact h3, ?_⟩
          intro x hx
          apply h4
          by_cases hxe : x = e.hash
          · left; simp [hxe]
          · rcases hx with hx | ⟨e', h5, h6⟩
            · left; simp [hxe, hx]
            · right
              rcases List.mem_cons.mp h5 with h7 | h7
              · cases h7; exact absurd h6.symm hxe
              · exact ⟨e', h7, h6⟩
      · simp [putEntry, he] at h

theorem update_frame {s s' : Sys Dt K} {i id : Nat} (hid : s.slots[i]? = some id) (h : update s i = some s') :
    ∃ buf, s' = { setFn s id { s.fns id with cache := .shared s.cur } with bufs := fun b => if b = s.cur then buf else s.bufs b } ∧
      (cacheOf s (s.fns id)).foldlM (putEntry s.k) (s.bufs s.cur) = some buf := by
  unfold update at h
  rw [hid] at h
  simp only [Option.bind_eq_bind, Option.bind_some] at h
  cases hb : (cacheOf s (s.fns id)).foldlM (putEntry s.k) (s.bufs s.cur) with
  | none => rw [hb] at h; exact absurd h (by simp)
  | some buf =>
    rw [hb] at h
    simp only [Option.bind_some, Option.some.injEq] at h
    exact ⟨buf, h.symm, rfl⟩

/-- A move changes nothing outside the locations it may write. -/
theorem writes_sound {w : Who} {q : Ph Dt K} (h : move F n pts muts p w = some q) : ∀ l, l ∉ writes n p w → AgreeAt q p l := by
  intro l hl
  cases w with
  | work i =>
    unfold move at h
    unfold writes at hl
    simp only at h hl
    cases ht : p.tasks i with
    | idle => rw [ht] at h; exact absurd h (by simp)
    | sent id => rw [ht] at h; exact absurd h (by simp)
    | received id => rw [ht] at h; exact absurd h (by simp)
    | ready id =>
      rw [ht] at h hl
      simp only at h hl
      cases hs : setup F (p.sys.fns id) (fun b => (p.sys.fns b).tri) (pts i) (muts i) with
      | none => rw [hs] at h; exact absurd h (by simp)
      | some d =>
        rw [hs] at h
        cases h
        simp only [Set.mem_union, Set.mem_insert_iff, Set.mem_singleton_iff, Set.mem_ofPred_eq, not_or, not_and] at hl
        obtain ⟨⟨h1, h2⟩, h3⟩ := hl
        cases l with
        | tri j =>
          unfold AgreeAt
          by_cases hj : j = id
          · subst hj
            simp only [setFn, if_true]
            have h4 : ¬ ((p.sys.fns j).tri = none ∨ (p.sys.fns j).base ≠ none) := fun h => h3 h rfl
            push Not at h4
            unfold setup at hs
            cases htr : (p.sys.fns j).tri with
            | none => exact absurd htr h4.1
            | some d' =>
              rw [htr, h4.2] at hs
              simp only at hs
              rw [hs]
          · simp [setFn, hj]
        | base j => unfold AgreeAt; have : j ≠ id := by rintro rfl; exact h1 rfl
                    simp [setFn, this]
        | next j => unfold AgreeAt; have : j ≠ id := by rintro rfl; exact h2 rfl
                    simp [setFn, this]
        | cache j =>
          unfold AgreeAt
          by_cases hj : j = id
          · subst hj; simp [setFn]
          · simp [setFn, hj]
        | cell b x => rfl
        | slot j => rfl
        | cur => rfl
    | loop id r old todo acc =>
      rw [ht] at h hl
      cases todo with
      | nil =>
        simp only [Option.some.injEq, Set.mem_singleton_iff] at h hl
        subst h
        cases l with
        | cache j => unfold AgreeAt; have : j ≠ id := by rintro rfl; exact hl rfl
                     simp [setFn, this]
        | tri j => unfold AgreeAt; by_cases hj : j = id
                   · subst hj; simp [setFn]
                   · simp [setFn, hj]
        | base j => unfold AgreeAt; by_cases hj : j = id
                    · subst hj; simp [setFn]
                    · simp [setFn, hj]
        | next j => unfold AgreeAt; by_cases hj : j = id
                    · subst hj; simp [setFn]
                    · simp [setFn, hj]
        | cell b x => rfl
        | slot j => rfl
        | cur => rfl
      | cons key todo =>
        simp only [Set.mem_singleton_iff] at h hl
        cases hx : keyStep F p.sys.bufs p.sys.k old (p.sys.fns id).next r key with
        | none => rw [hx] at h; exact absurd h (by simp)
        | some x =>
          rw [hx] at h
          cases h
          cases l with
          | next j => unfold AgreeAt; have : j ≠ id := by rintro rfl; exact hl rfl
                      simp [setFn, this]
          | tri j => unfold AgreeAt; by_cases hj : j = id
                     · subst hj; simp [setFn]
                     · simp [setFn, hj]
          | base j => unfold AgreeAt; by_cases hj : j = id
                      · subst hj; simp [setFn]
                      · simp [setFn, hj]
          | cache j => unfold AgreeAt; by_cases hj : j = id
                       · subst hj; simp [setFn]
                       · simp [setFn, hj]
          | cell b x => rfl
          | slot j => rfl
          | cur => rfl
    | done id v =>
      rw [ht] at h
      cases h
      cases l <;> rfl
  | main =>
    unfold move at h
    unfold writes at hl
    simp only at h hl
    cases hp : p.pc with
    | sub k =>
      rw [hp] at h hl
      simp only at h hl
      by_cases hk : k < n
      · rw [if_pos hk] at h
        cases hs : p.sys.slots[k]? with
        | none => rw [hs] at h; exact absurd h (by simp)
        | some id =>
          rw [hs] at h
          cases h
          cases l <;> rfl
      · rw [if_neg hk] at h hl
        cases h
        cases l <;> first | rfl | exact absurd rfl hl
    | recv m =>
      rw [hp] at h hl
      simp only at h hl
      cases hc : p.chan with
      | nil => rw [hc] at h; exact absurd h (by simp)
      | cons x rest =>
        obtain ⟨i, v⟩ := x
        rw [hc] at h hl
        simp only at h hl
        cases hu : update p.sys i with
        | none => rw [hu] at h; exact absurd h (by simp)
        | some s' =>
          rw [hu] at h
          cases hs : p.sys.slots[i]? with
          | none => rw [hs] at h; exact absurd h (by simp)
          | some id =>
            rw [hs] at h hl
            cases h
            obtain ⟨buf, rfl, hbuf⟩ := update_frame hs hu
            simp only [Set.mem_ofPred_eq, Option.some.injEq, not_exists, not_and, not_or] at hl
            replace hl := hl id rfl
            cases l with
            | cache j => unfold AgreeAt; have : j ≠ id := by rintro rfl; exact hl.1 rfl
                         simp [setFn, this]
            | tri j => unfold AgreeAt; by_cases hj : j = id
                       · subst hj; simp [setFn]
                       · simp [setFn, hj]
            | base j => unfold AgreeAt; by_cases hj : j = id
                        · subst hj; simp [setFn]
                        · simp [setFn, hj]
            | next j => unfold AgreeAt; by_cases hj : j = id
                        · subst hj; simp [setFn]
                        · simp [setFn, hj]
            | cell b x =>
              unfold AgreeAt
              by_cases hb : b = p.sys.cur
              · subst hb
                simp only [if_true]
                exact (putAll_cells _ hbuf).1 x (fun e he hx => hl.2 e he (by rw [hx]))
              · simp [hb]
            | slot j => rfl
            | cur => rfl

/-- A move depends on nothing but the locations it reads: from states that agree on these, it does the same to the locations
it writes and to the local state. -/
theorem reads_sound {p' : Ph Dt K} {w : Who} {q : Ph Dt K} (h : move F n pts muts p w = some q)
    (h1 : p'.pc = p.pc) (h2 : p'.tasks = p.tasks) (h3 : p'.chan = p.chan) (h4 : p'.arr = p.arr) (h5 : p'.sys.k = p.sys.k)
    (ha : ∀ l ∈ reads F n p w, AgreeAt p p' l) :
    ∃ q', move F n pts muts p' w = some q' ∧ q'.pc = q.pc ∧ q'.tasks = q.tasks ∧ q'.chan = q.chan ∧ q'.arr = q.arr ∧
      ∀ l ∈ writes n p w, AgreeAt q q' l := by
  cases w with
  | work i =>
    unfold move at h ⊢
    unfold writes
    unfold reads at ha
    simp only at h ha ⊢
    rw [h2]
    cases ht : p.tasks i with
    | idle => rw [ht] at h; exact absurd h (by simp)
    | sent id => rw [ht] at h; exact absurd h (by simp)
    | received id => rw [ht] at h; exact absurd h (by simp)
    | ready id =>
      rw [ht] at h ha
      simp only [Set.mem_union, Set.mem_insert_iff, Set.mem_singleton_iff, Set.mem_ofPred_eq] at h ha ⊢
      have a1 : (p.sys.fns id).tri = (p'.sys.fns id).tri := ha (.tri id) (by simp)
      have a2 : (p.sys.fns id).base = (p'.sys.fns id).base := ha (.base id) (by simp)
      have a3 : (p.sys.fns id).cache = (p'.sys.fns id).cache := ha (.cache id) (by simp)
      have a4 : (p.sys.fns id).next = (p'.sys.fns id).next := ha (.next id) (by simp)
      have a5 : ∀ b, (p.sys.fns id).base = some b → (p.sys.fns b).tri = (p'.sys.fns b).tri := fun b hb => ha (.tri b) (Or.inr ⟨b, hb, rfl⟩)
      have hs : setup F (p'.sys.fns id) (fun b => (p'.sys.fns b).tri) (pts i) (muts i) = setup F (p.sys.fns id) (fun b => (p.sys.fns b).tri) (pts i) (muts i) := by
        unfold setup
        rw [← a1, ← a2]
        cases (p.sys.fns id).tri with
        | none => rfl
        | some d =>
          simp only
          cases hb : (p.sys.fns id).base with
          | none => rfl
          | some b => simp only; rw [a5 b hb]
      rw [hs]
      cases hd : setup F (p.sys.fns id) (fun b => (p.sys.fns b).tri) (pts i) (muts i) with
      | none => rw [hd] at h; exact absurd h (by simp)
      | some d =>
        rw [hd] at h
        cases h
        refine ⟨_, rfl, h1, ?_, h3, h4, ?_⟩
        · simp only [h2, a3, a4]
        · rintro l ((rfl | rfl) | ⟨_, rfl⟩) <;> simp [AgreeAt, setFn]
    | loop id r old todo acc =>
      rw [ht] at h ha
      cases todo with
      | nil =>
        simp only [Option.some.injEq, Set.mem_singleton_iff] at h ha ⊢
        subst h
        refine ⟨_, rfl, h1, by simp only [h2], h3, h4, ?_⟩
        rintro l rfl
        simp [AgreeAt, setFn]
      | cons key todo =>
        simp only [Set.mem_union, Set.mem_insert_iff, Set.mem_singleton_iff, Set.mem_ofPred_eq] at h ha ⊢
        have a1 : (p.sys.fns id).next = (p'.sys.fns id).next := ha (.next id) (by simp)
        have hk : keyStep F p'.sys.bufs p'.sys.k old (p'.sys.fns id).next r key = keyStep F p.sys.bufs p.sys.k old (p.sys.fns id).next r key := by
          unfold keyStep
          rw [← a1, h5]
          have : readRef p'.sys.bufs p.sys.k old (p.sys.fns id).next r (indexOf (F.hash key) (refLen p.sys.k old r)) =
              readRef p.sys.bufs p.sys.k old (p.sys.fns id).next r (indexOf (F.hash key) (refLen p.sys.k old r)) := by
            unfold readRef
            cases r with
            | fresh => rfl
            | own => rfl
            | shared b =>
              have a2 := ha (.cell b (indexOf (F.hash key) (2 ^ p.sys.k))) (Or.inr ⟨b, rfl, rfl⟩)
              unfold AgreeAt at a2
              simp only [refLen]
              rw [a2]
          dsimp only
          rw [this]
        rw [hk]
        cases hx : keyStep F p.sys.bufs p.sys.k old (p.sys.fns id).next r key with
        | none => rw [hx] at h; exact absurd h (by simp)
        | some x =>
          rw [hx] at h
          cases h
          refine ⟨_, rfl, h1, by simp only [h2], h3, h4, ?_⟩
          rintro l rfl
          simp [AgreeAt, setFn, a1]
    | done id v =>
      rw [ht] at h
      cases h
      exact ⟨_, rfl, h1, by simp only [h2], by simp only [h3], h4, by simp⟩
  | main =>
    unfold move at h ⊢
    unfold writes
    unfold reads at ha
    simp only at h ha ⊢
    rw [h1]
    cases hp : p.pc with
    | sub k =>
      rw [hp] at h ha
      simp only at h ha ⊢
      by_cases hk : k < n
      · rw [if_pos hk] at h ha ⊢
        have a1 : p.sys.slots[k]? = p'.sys.slots[k]? := ha (.slot k) (by simp)
        rw [← a1]
        cases hs : p.sys.slots[k]? with
        | none => rw [hs] at h; exact absurd h (by simp)
        | some id =>
          rw [hs] at h
          cases h
          exact ⟨_, rfl, rfl, by simp only [h2], h3, h4, by simp [hk]⟩
      · rw [if_neg hk] at h ha ⊢
        cases h
        have a1 : p.sys.cur = p'.sys.cur := ha .cur (by simp)
        refine ⟨_, rfl, rfl, h2, h3, h4, ?_⟩
        rw [if_neg hk]
        rintro l rfl
        simp [AgreeAt, prepare, a1]
    | recv m =>
      rw [hp] at h ha
      simp only at h ha ⊢
      rw [h3]
      cases hc : p.chan with
      | nil => rw [hc] at h; exact absurd h (by simp)
      | cons x rest =>
        obtain ⟨i, v⟩ := x
        rw [hc] at h ha
        simp only [Set.mem_union, Set.mem_insert_iff, Set.mem_singleton_iff, Set.mem_ofPred_eq] at h ha ⊢
        have a1 : p.sys.slots[i]? = p'.sys.slots[i]? := ha (.slot i) (by simp)
        have a2 : p.sys.cur = p'.sys.cur := ha .cur (by simp)
        cases hu : update p.sys i with
        | none => rw [hu] at h; exact absurd h (by simp)
        | some s' =>
          rw [hu] at h
          cases hs : p.sys.slots[i]? with
          | none => rw [hs] at h; exact absurd h (by simp)
          | some id =>
            rw [hs] at h ha a1
            cases h
            obtain ⟨buf, rfl, hbuf⟩ := update_frame hs hu
            have a3 : (p.sys.fns id).cache = (p'.sys.fns id).cache := ha (.cache id) (Or.inr ⟨id, rfl, Or.inl rfl⟩)
            have a4 : (p.sys.fns id).next = (p'.sys.fns id).next := ha (.next id) (Or.inr ⟨id, rfl, Or.inr (Or.inl rfl)⟩)
            have hco : cacheOf p'.sys (p'.sys.fns id) = cacheOf p.sys (p.sys.fns id) := by
              unfold cacheOf
              rw [← a3, ← a4, h5]
              cases hca : (p.sys.fns id).cache with
              | fresh => rfl
              | own => rfl
              | shared b =>
                simp only
                apply List.map_congr_left
                intro x _
                have := ha (.cell b x) (Or.inr ⟨id, rfl, Or.inr (Or.inr ⟨b, x, hca, rfl⟩)⟩)
                exact this.symm
            obtain ⟨c', hc1, hc2⟩ := (putAll_cells _ hbuf).2 (p'.sys.bufs p'.sys.cur)
            have hu' : update p'.sys i = some { setFn p'.sys id { p'.sys.fns id with cache := .shared p'.sys.cur } with
                bufs := fun b => if b = p'.sys.cur then c' else p'.sys.bufs b } := by
              unfold update
              rw [← a1]
              simp only [Option.bind_eq_bind, Option.bind_some]
              rw [hco, h5, hc1]
              rfl
            rw [hu', ← a1]
            refine ⟨_, rfl, rfl, by simp only [h2], rfl, by simp only [h4], ?_⟩
            rintro l ⟨id', e, hl⟩
            cases e
            rcases hl with rfl | ⟨e, he, rfl⟩
            · simp [AgreeAt, setFn, a2]
            · simp only [AgreeAt, ← a2, if_true]
              exact hc2 _ (Or.inr ⟨e, he, rfl⟩)

/-- In no state that can be reached are two goroutines about to race. -/
theorem PInv.noRace (H : PhaseOK F ok n pts muts s T V) (I : PInv F ok n s T V p ch ar) : ¬ Race F n p := by
  -- the ids of different tasks differ
  have hid : ∀ i j, i < n → j < n → i ≠ j → idAt s i ≠ idAt s j := fun i j hi hj hij e =>
    hij (idAt_inj H.nodup (by have := H.len; omega) (by have := H.len; omega) e)
  -- what a worker's move touches
  have hwork : ∀ i, Enabled n p (.work i) → i < n ∧ (∀ l ∈ writes n p (.work i), l = .base (idAt s i) ∨ l = .next (idAt s i) ∨ l = .cache (idAt s i) ∨
      (l = .tri (idAt s i) ∧ ((s.fns (idAt s i)).tri = none ∨ (s.fns (idAt s i)).base ≠ none))) ∧
      (∀ l ∈ reads F n p (.work i), l = .tri (idAt s i) ∨ l = .base (idAt s i) ∨ l = .next (idAt s i) ∨ l = .cache (idAt s i) ∨
        (∃ b, (s.fns (idAt s i)).base = some b ∧ l = .tri b) ∨ ∃ x, l = .cell s.cur x) ∧
      ∀ id, p.tasks i ≠ .sent id := by
    intro i he
    unfold Enabled at he
    simp only at he
    have hi : i < n := I.lt (by intro h; rw [h] at he; exact he)
    have hs : ∀ id, p.tasks i ≠ .sent id := by intro id h; rw [h] at he; exact he
    have tI := I.task i hi
    unfold TaskInv at tI
    refine ⟨hi, ?_, ?_, hs⟩
    · intro l hl
      unfold writes at hl
      simp only at hl
      split at hl
      · rename_i id ht
        rw [ht] at tI
        obtain ⟨rfl, hf⟩ := tI
        rw [hf] at hl
        simp only [Set.mem_union, Set.mem_insert_iff, Set.mem_singleton_iff, Set.mem_ofPred_eq] at hl
        tauto
      · rename_i id _ _ _ _ _ ht
        rw [ht] at tI
        obtain ⟨rfl, hf⟩ := tI
        simp only [Set.mem_singleton_iff] at hl
        tauto
      · rename_i id _ _ _ ht
        rw [ht] at tI
        obtain ⟨rfl, hf⟩ := tI
        simp only [Set.mem_singleton_iff] at hl
        tauto
      · exact absurd hl (by simp)
    · intro l hl
      unfold reads at hl
      simp only at hl
      split at hl
      · rename_i id ht
        rw [ht] at tI
        obtain ⟨rfl, hf⟩ := tI
        rw [hf] at hl
        simp only [Set.mem_union, Set.mem_insert_iff, Set.mem_singleton_iff, Set.mem_ofPred_eq] at hl
        rcases hl with (h | h | h | h) | h
        · exact Or.inl h
        · exact Or.inr (Or.inl h)
        · exact Or.inr (Or.inr (Or.inr (Or.inl h)))
        · exact Or.inr (Or.inr (Or.inl h))
        · exact Or.inr (Or.inr (Or.inr (Or.inr (Or.inl h))))
      · rename_i id r _ key _ _ ht
        rw [ht] at tI
        obtain ⟨rfl, hr, _⟩ := tI
        simp only [Set.mem_union, Set.mem_insert_iff, Set.mem_singleton_iff, Set.mem_ofPred_eq] at hl
        rcases hl with (h | h) | ⟨b, h1, h2⟩
        · tauto
        · tauto
        · rw [hr] at h1
          rcases H.cache i hi with h | h
          · rw [h] at h1; cases h1
          · rw [h] at h1
            cases h1
            exact Or.inr (Or.inr (Or.inr (Or.inr (Or.inr ⟨_, h2⟩))))
      · rename_i id _ _ _ ht
        rw [ht] at tI
        obtain ⟨rfl, hf⟩ := tI
        simp only [Set.mem_singleton_iff] at hl
        tauto
      · exact absurd hl (by simp)
  -- what a move of the main goroutine touches
  have hmain : (∀ l ∈ writes n p .main, l = .cur ∨ (∃ x, l = .cell (!s.cur) x) ∨ ∃ i < n, (∃ id, p.tasks i = .sent id) ∧ l = .cache (idAt s i)) ∧
      (∀ l ∈ reads F n p .main, l = .cur ∨ (∃ i, l = .slot i) ∨ (∃ i < n, (∃ id, p.tasks i = .sent id) ∧ (l = .cache (idAt s i) ∨ l = .next (idAt s i)))) := by
    have hpc := I.pc
    unfold PCInv at hpc
    unfold writes reads
    simp only
    cases hp : p.pc with
    | sub k =>
      simp only
      by_cases hk : k < n
      · rw [if_pos hk, if_pos hk]
        exact ⟨by simp, by intro l hl; simp only [Set.mem_singleton_iff] at hl; exact Or.inr (Or.inl ⟨k, hl⟩)⟩
      · rw [if_neg hk, if_neg hk]
        exact ⟨by intro l hl; simp only [Set.mem_singleton_iff] at hl; exact Or.inl hl, by intro l hl; simp only [Set.mem_singleton_iff] at hl; exact Or.inl hl⟩
    | recv m =>
      rw [hp] at hpc
      simp only at hpc ⊢
      cases hc : p.chan with
      | nil => simp
      | cons x rest =>
        obtain ⟨i, v⟩ := x
        simp only
        have hich : i ∈ ch := by
          have h1 := I.chan
          rw [hc] at h1
          cases ch with
          | nil => simp at h1
          | cons j ch =>
            simp only [List.map_cons, List.cons.injEq, Prod.mk.injEq] at h1
            rw [h1.1.1]
            simp
        obtain ⟨id0, ht⟩ := (I.chT i).mp hich
        have hi := I.lt (i := i) (by rw [ht]; simp)
        have hsl : p.sys.slots[i]? = some (idAt s i) := by rw [I.slots]; exact slots_idAt (by have := H.len; omega)
        have tI := I.task i hi
        unfold TaskInv at tI
        rw [ht] at tI
        obtain ⟨rfl, _, hca⟩ := tI
        rw [hsl]
        refine ⟨?_, ?_⟩
        · intro l hl
          simp only [Set.mem_ofPred_eq, Option.some.injEq] at hl
          obtain ⟨id, rfl, rfl | ⟨e, _, rfl⟩⟩ := hl
          · exact Or.inr (Or.inr ⟨i, hi, ⟨_, ht⟩, rfl⟩)
          · rw [hpc.1]; exact Or.inr (Or.inl ⟨_, rfl⟩)
        · intro l hl
          simp only [Set.mem_union, Set.mem_insert_iff, Set.mem_singleton_iff, Set.mem_ofPred_eq, Option.some.injEq] at hl
          rcases hl with (h | h) | ⟨id, rfl, h | h | ⟨b, x, h, _⟩⟩
          · exact Or.inr (Or.inl ⟨i, h⟩)
          · exact Or.inl h
          · exact Or.inr (Or.inr ⟨i, hi, ⟨_, ht⟩, Or.inl h⟩)
          · exact Or.inr (Or.inr ⟨i, hi, ⟨_, ht⟩, Or.inr h⟩)
          · rw [hca] at h; cases h
  rintro ⟨w, w', hne, e1, e2, l, hl, hl'⟩
  have hcur : s.cur ≠ !s.cur := by cases s.cur <;> simp
  cases w with
  | main =>
    cases w' with
    | main => exact hne rfl
    | work j =>
      obtain ⟨hj, ws, rs, ns⟩ := hwork j e2
      have hij : ∀ i, (∃ id, p.tasks i = .sent id) → i ≠ j := by rintro i ⟨id, h⟩ rfl; exact ns id h
      rcases hmain.1 l hl with rfl | ⟨x, rfl⟩ | ⟨i, hi, hs, rfl⟩
      · rcases hl' with h | h
        · rcases rs _ h with h | h | h | h | ⟨b, _, h⟩ | ⟨x, h⟩ <;> cases h
        · rcases ws _ h with h | h | h | ⟨h, _⟩ <;> cases h
      · rcases hl' with h | h
        · rcases rs _ h with h | h | h | h | ⟨b, _, h⟩ | ⟨x', h⟩ <;> first | (injection h with h; exact hcur h.symm) | cases h
        · rcases ws _ h with h | h | h | ⟨h, _⟩ <;> cases h
      · have hd := hid i j hi hj (hij i hs)
        rcases hl' with h | h
        · rcases rs _ h with h | h | h | h | ⟨b, _, h⟩ | ⟨x, h⟩ <;> first | (injection h with h; exact hd h) | cases h
        · rcases ws _ h with h | h | h | ⟨h, _⟩ <;> first | (injection h with h; exact hd h) | cases h
  | work i =>
    obtain ⟨hi, ws, rs, ns⟩ := hwork i e1
    cases w' with
    | main =>
      have hij : ∀ j, (∃ id, p.tasks j = .sent id) → i ≠ j := by rintro j ⟨id, h⟩ rfl; exact ns id h
      rcases hl' with h' | h'
      · rcases hmain.2 l h' with rfl | ⟨j, rfl⟩ | ⟨j, hj, hs, rfl | rfl⟩
        · rcases ws _ hl with h | h | h | ⟨h, _⟩ <;> cases h
        · rcases ws _ hl with h | h | h | ⟨h, _⟩ <;> cases h
        · have hd := hid i j hi hj (hij j hs)
          rcases ws _ hl with h | h | h | ⟨h, _⟩ <;> first | (injection h with h; exact hd h.symm) | cases h
        · have hd := hid i j hi hj (hij j hs)
          rcases ws _ hl with h | h | h | ⟨h, _⟩ <;> first | (injection h with h; exact hd h.symm) | cases h
      · rcases hmain.1 l h' with rfl | ⟨j, rfl⟩ | ⟨j, hj, hs, rfl⟩
        · rcases ws _ hl with h | h | h | ⟨h, _⟩ <;> cases h
        · rcases ws _ hl with h | h | h | ⟨h, _⟩ <;> cases h
        · have hd := hid i j hi hj (hij j hs)
          rcases ws _ hl with h | h | h | ⟨h, _⟩ <;> first | (injection h with h; exact hd h.symm) | cases h
    | work j =>
      obtain ⟨hj, ws', rs', _⟩ := hwork j e2
      have hd := hid i j hi hj (by rintro rfl; exact hne rfl)
      rcases ws _ hl with rfl | rfl | rfl | ⟨rfl, hb⟩
      · rcases hl' with h | h
        · rcases rs' _ h with h | h | h | h | ⟨b, _, h⟩ | ⟨x, h⟩ <;> first | (injection h with h; exact hd h) | cases h
        · rcases ws' _ h with h | h | h | ⟨h, _⟩ <;> first | (injection h with h; exact hd h) | cases h
      · rcases hl' with h | h
        · rcases rs' _ h with h | h | h | h | ⟨b, _, h⟩ | ⟨x, h⟩ <;> first | (injection h with h; exact hd h) | cases h
        · rcases ws' _ h with h | h | h | ⟨h, _⟩ <;> first | (injection h with h; exact hd h) | cases h
      · rcases hl' with h | h
        · rcases rs' _ h with h | h | h | h | ⟨b, _, h⟩ | ⟨x, h⟩ <;> first | (injection h with h; exact hd h) | cases h
        · rcases ws' _ h with h | h | h | ⟨h, _⟩ <;> first | (injection h with h; exact hd h) | cases h
      · rcases hl' with h | h
        · rcases rs' _ h with h | h | h | h | ⟨b, hbb, h⟩ | ⟨x, h⟩
          · injection h with h; exact hd h
          · cases h
          · cases h
          · cases h
          · injection h with h
            obtain ⟨d, h1, h2⟩ := H.base j hj b hbb
            rw [h] at hb
            rcases hb with hb | hb
            · rw [h1] at hb; cases hb
            · exact hb h2
          · cases h
        · rcases ws' _ h with h | h | h | ⟨h, _⟩ <;> first | (injection h with h; exact hd h) | cases h

end Verif.Alg

import Verif.Alg.Calls
import Verif.Alg.Gen
import Verif.Alg.Laws

/-!
# Which points an evaluator holds, and which calls may be made when

`flag` and `Recorded` describe, without reference to the evaluator's state, the calls its users make.
-/

namespace Verif.Alg

open Verif.Fit

/-! ### `Calculate` and `Update` of a member alternate -/

/-- The members calculated but not updated since, before and after a call; `none` if the call is out of turn. -/
def flag (p : List Bool) : Call → Option (List Bool)
  | .calculate i _ _ => if p[i]? = some false then some (p.set i true) else none
  | .update i => if p[i]? = some true then some (p.set i false) else none
  | .swap i j =>
    match p[i]?, p[j]? with
    | some a, some b => some ((p.set i b).set j a)
    | _, _ => none
  | .setBase i j => if i < p.length ∧ j < p.length then some p else none
  | .prepare => some p

/-- The same for a list of calls. -/
def flags (p : List Bool) (cs : List Call) : Option (List Bool) := cs.foldlM flag p

variable {Dt K : Type} {F : Fun Dt K}

/-- The flags say which functions have an own cache. -/
structure FlagInv (p : List Bool) (s : Sys Dt K) : Prop where
  nodup : s.slots.Nodup
  len : p.length = s.slots.length
  own : ∀ (i id : Nat), s.slots[i]? = some id → ((s.fns id).cache = .own ↔ p[i]? = some true)

theorem FlagInv.new (n k : Nat) : FlagInv (List.replicate n false) (newParallel n k : Sys Dt K) := by
  refine ⟨List.nodup_range, by simp [newParallel], ?_⟩
  intro i id h
  simp [newParallel, List.getElem?_replicate]

theorem get_inj {l : List Nat} (h : l.Nodup) {i j x : Nat} (hi : l[i]? = some x) (hj : l[j]? = some x) : i = j := by
  obtain ⟨i1, i2⟩ := List.getElem?_eq_some_iff.mp hi
  obtain ⟨j1, j2⟩ := List.getElem?_eq_some_iff.mp hj
  exact (h.getElem_inj_iff).mp (i2.trans j2.symm)

/-- Changing the state of one function. -/
theorem FlagInv.setFn {p : List Bool} {s : Sys Dt K} (I : FlagInv p s) {i id : Nat} (hid : s.slots[i]? = some id) {fn : Fn Dt K} {b : Bool}
    (hb : fn.cache = .own ↔ b = true) : FlagInv (p.set i b) (setFn s id fn) := by
  refine ⟨I.nodup, by simp [Alg.setFn, I.len], ?_⟩
  intro j jd hj
  change s.slots[j]? = some jd at hj
  have hi : i < p.length := by rw [I.len]; exact (List.getElem?_eq_some_iff.mp hid).1
  rw [get_set hi]
  simp only [Alg.setFn]
  by_cases e : j = i
  · subst e
    rw [hid] at hj
    cases hj
    simp [hb]
  · have : jd ≠ id := by
      rintro rfl
      exact e (get_inj I.nodup hj hid)
    rw [if_neg this, if_neg e]
    exact I.own j jd hj

theorem FlagInv.call {p p' : List Bool} {s : Sys Dt K} (I : FlagInv p s) {c : Call} (hf : flag p c = some p') {x : Option ℚ × Sys Dt K}
    (e : call F s c = some x) : FlagInv p' x.2 := by
  cases c with
  | calculate i ps ms =>
    simp only [Alg.call, Option.map_eq_some_iff] at e
    obtain ⟨y, e, rfl⟩ := e
    unfold calculate at e
    simp only [Option.bind_eq_bind, Option.bind_eq_some_iff] at e
    obtain ⟨id, hid, d, -, z, -, e⟩ := e
    cases e
    simp only [flag] at hf
    split at hf
    · cases hf; exact I.setFn hid (by simp)
    · cases hf
  | update i =>
    simp only [Alg.call, Option.map_eq_some_iff] at e
    obtain ⟨y, e, rfl⟩ := e
    unfold Alg.update at e
    simp only [Option.bind_eq_bind, Option.bind_eq_some_iff] at e
    obtain ⟨id, hid, buf, -, e⟩ := e
    cases e
    simp only [flag] at hf
    split at hf
    · cases hf
      have J := I.setFn hid (fn := { s.fns id with cache := .shared s.cur }) (b := false) (by simp)
      exact ⟨J.nodup, J.len, J.own⟩
    · cases hf
  | prepare => cases e; cases hf; exact ⟨I.nodup, I.len, I.own⟩
  | setBase i j =>
    simp only [Alg.call, Option.map_eq_some_iff] at e
    obtain ⟨y, e, rfl⟩ := e
    unfold Alg.setBase at e
    simp only [Option.bind_eq_bind, Option.bind_eq_some_iff] at e
    obtain ⟨id, hid, b, -, e⟩ := e
    cases e
    simp only [flag] at hf
    split at hf
    · cases hf
      refine ⟨I.nodup, I.len, ?_⟩
      intro j jd hj
      have := I.own j jd hj
      simp only [Alg.setFn]
      split
      · rename_i h; subst h; exact this
      · exact this
    · cases hf
  | swap i j =>
    simp only [Alg.call, Option.map_eq_some_iff] at e
    obtain ⟨y, e, rfl⟩ := e
    unfold Alg.swap at e
    simp only [Option.bind_eq_bind, Option.bind_eq_some_iff] at e
    obtain ⟨l, hl, e⟩ := e
    cases e
    have hf' : swapList p i j = some p' := by
      unfold swapList
      simp only [flag] at hf
      split at hf
      · rename_i a b h1 h2; rw [h1, h2]; exact hf
      · cases hf
    obtain ⟨-, -, l1, g1⟩ := swapList_get hl
    obtain ⟨-, -, l2, g2⟩ := swapList_get hf'
    refine ⟨(swapList_perm hl).nodup_iff.mpr I.nodup, by rw [l2, I.len]; exact l1.symm, ?_⟩
    intro k id hk
    change l[k]? = some id at hk
    change (s.fns id).cache = .own ↔ _
    rw [g1] at hk
    rw [g2]
    by_cases e1 : k = j
    · rw [if_pos e1] at hk ⊢; exact I.own i id hk
    · rw [if_neg e1] at hk ⊢
      by_cases e2 : k = i
      · rw [if_pos e2] at hk ⊢; exact I.own j id hk
      · rw [if_neg e2] at hk ⊢; exact I.own k id hk

theorem FlagInv.orderly {p p' : List Bool} {s : Sys Dt K} (I : FlagInv p s) {c : Call} (hf : flag p c = some p') : Orderly s c := by
  cases c with
  | calculate i ps ms =>
    intro id hid
    simp only [flag] at hf
    split at hf
    · rename_i h
      rw [Ne, I.own i id hid, h]
      simp
    · cases hf
  | update i =>
    intro id hid
    simp only [flag] at hf
    split at hf
    · rename_i h
      rw [I.own i id hid, h]
    · cases hf
  | _ => trivial

theorem FlagInv.calls : ∀ (cs : List Call) {p p' : List Bool} {s s' : Sys Dt K}, FlagInv p s → flags p cs = some p' → calls F s cs = some s' →
    FlagInv p' s' ∧ OrderlyCalls F s cs := by
  intro cs
  induction cs with
  | nil =>
    intro p p' s s' I hf e
    cases hf
    cases e
    exact ⟨I, trivial⟩
  | cons c cs ih =>
    intro p p' s s' I hf e
    unfold flags at hf
    rw [List.foldlM_cons] at hf
    simp only [Option.bind_eq_bind] at hf
    rw [Option.bind_eq_some_iff] at hf
    obtain ⟨p1, h1, hf⟩ := hf
    unfold Alg.calls at e
    simp only [Option.bind_eq_bind, Option.bind_eq_some_iff] at e
    obtain ⟨x, hx, e⟩ := e
    obtain ⟨J, O⟩ := ih (I.call h1 hx) hf e
    refine ⟨J, I.orderly h1, ?_⟩
    intro y hy
    rw [hx] at hy
    cases hy
    exact O

/-! ### The points of every function -/

/-- What a user keeps track of: the functions in the order of the members, the points last given to each function, and the function
whose points are its base. -/
structure Book where
  slots : List Nat
  pts : Nat → Option (List NP)
  base : Nat → Option Nat

/-- At the start there are `n` functions. -/
def Book.new (n : Nat) : Book := ⟨List.range n, fun _ => none, fun _ => none⟩

/-- Function `id` is now at `ps`. -/
def Book.at (B : Book) (id : Nat) (ps : List NP) : Book :=
  { B with pts := fun j => if j = id then some ps else B.pts j, base := fun j => if j = id then none else B.base j }

/-- Calls of a user who gives each function `N` points of the domain the first time, later only mutations recorded against the points of the
base, or, without a base, the points it has. -/
inductive Recorded (Dom : NP → Prop) (N : Nat) : Book → Call → Book → Prop where
  | first {B : Book} {i id : Nat} {ps : List NP} {ms : List Mut} : B.slots[i]? = some id → B.pts id = none → ps.length = N → (∀ p ∈ ps, Dom p) →
      Recorded Dom N B (.calculate i ps ms) (B.at id ps)
  | incr {B : Book} {i id b : Nat} {qs os ps : List NP} {ms : List Mut} : B.slots[i]? = some id → B.pts id = some qs → B.base id = some b →
      B.pts b = some os → Mutates Dom os ps ms → Recorded Dom N B (.calculate i ps ms) (B.at id ps)
  | same {B : Book} {i id : Nat} {ps : List NP} {ms : List Mut} : B.slots[i]? = some id → B.pts id = some ps → B.base id = none →
      Recorded Dom N B (.calculate i ps ms) (B.at id ps)
  | update {B : Book} (i : Nat) : Recorded Dom N B (.update i) B
  | prepare {B : Book} : Recorded Dom N B .prepare B
  | setBase {B : Book} {i j id b : Nat} : B.slots[i]? = some id → B.slots[j]? = some b →
      Recorded Dom N B (.setBase i j) { B with base := fun k => if k = id then (B.pts b).map (fun _ => b) else B.base k }
  | swap {B : Book} {i j a b : Nat} : B.slots[i]? = some a → B.slots[j]? = some b →
      Recorded Dom N B (.swap i j) { B with slots := (B.slots.set i b).set j a }

/-- The same for a list of calls. -/
inductive Recordeds (Dom : NP → Prop) (N : Nat) : Book → List Call → Book → Prop where
  | nil (B : Book) : Recordeds Dom N B [] B
  | cons {B B' B'' : Book} {c : Call} {cs : List Call} : Recorded Dom N B c B' → Recordeds Dom N B' cs B'' → Recordeds Dom N B (c :: cs) B''

/-- The evaluator agrees with the book. -/
structure BookInv (Repr : Dt → List NP → Prop) (B : Book) (s : Sys Dt K) : Prop where
  slots : B.slots = s.slots
  base : ∀ id, B.base id = (s.fns id).base
  absent : ∀ id, B.pts id = none → (s.fns id).tri = none
  held : ∀ id ps, B.pts id = some ps → ∃ d, (s.fns id).tri = some d ∧ Repr d ps
  based : ∀ id b, B.base id = some b → B.pts b ≠ none

theorem BookInv.new {Repr : Dt → List NP → Prop} (n k : Nat) : BookInv Repr (Book.new n) (newParallel n k : Sys Dt K) :=
  ⟨rfl, fun _ => rfl, fun _ _ => rfl, (by intro id ps h; cases h), (by intro id b h; cases h)⟩

variable {ok : K → Prop} {Dom : NP → Prop} {N : Nat} {Repr : Dt → List NP → Prop}

/-- The set-up of `Calculate` gives a triangulation of the points of the call. -/
theorem BookInv.setup (L : Laws F ok Dom N Repr) {B B' : Book} {s : Sys Dt K} (I : BookInv Repr B s) {i : Nat} {ps : List NP} {ms : List Mut}
    (h : Recorded Dom N B (.calculate i ps ms) B') :
    ∃ id d, s.slots[i]? = .some id ∧ B' = B.at id ps ∧ setup F (s.fns id) (fun b => (s.fns b).tri) ps ms = .some d ∧ Repr d ps := by
  cases h with
  | first h1 h2 h3 h4 =>
    rename_i id
    obtain ⟨d0, d, e1, e2, r⟩ := L.build ps h3 h4
    refine ⟨id, d, by rw [← I.slots]; exact h1, rfl, ?_, r⟩
    unfold Alg.setup
    rw [I.absent id h2, e1]
    exact e2
  | incr h1 h2 h3 h4 h5 =>
    rename_i id b qs os
    obtain ⟨d, hd, r⟩ := I.held id _ h2
    obtain ⟨o, ho, r'⟩ := I.held b _ h4
    obtain ⟨d', e, r''⟩ := L.upd d _ o _ _ _ r r' h5
    refine ⟨id, d', by rw [← I.slots]; exact h1, rfl, ?_, r''⟩
    unfold Alg.setup
    rw [hd, ← I.base id, h3]
    simp only [ho, Option.bind_eq_bind, Option.bind_some]
    exact e
  | same h1 h2 h3 =>
    rename_i id
    obtain ⟨d, hd, r⟩ := I.held id _ h2
    refine ⟨id, d, by rw [← I.slots]; exact h1, rfl, ?_, r⟩
    unfold Alg.setup
    rw [hd, ← I.base id, h3]

theorem BookInv.at {B : Book} {s : Sys Dt K} (I : BookInv Repr B s) {id : Nat} {d : Dt} {ps : List NP} (r : Repr d ps) {c : Ref} {l : List (Entry K)} :
    BookInv Repr (B.at id ps) (setFn s id ⟨.some d, .none, c, l⟩) := by
  refine ⟨I.slots, ?_, ?_, ?_, ?_⟩
  · intro j
    by_cases e : j = id
    · simp [Book.at, setFn, e]
    · simp [Book.at, setFn, e, I.base j]
  · intro j h
    by_cases e : j = id
    · simp [Book.at, e] at h
    · simp only [Book.at, if_neg e] at h
      simp only [setFn, if_neg e]
      exact I.absent j h
  · intro j qs h
    by_cases e : j = id
    · simp only [Book.at, if_pos e, Option.some.injEq] at h
      subst h
      exact ⟨d, by simp [setFn, e], r⟩
    · simp only [Book.at, if_neg e] at h
      simp only [setFn, if_neg e]
      exact I.held j qs h
  · intro j b h
    by_cases e : j = id
    · simp [Book.at, e] at h
    · simp only [Book.at, if_neg e] at h ⊢
      split
      · simp
      · exact I.based j b h

/-- Every call succeeds and keeps the agreement. -/
theorem BookInv.call (L : Laws F ok Dom N Repr) {B B' : Book} {p p' : List Bool} {s : Sys Dt K}
    (I : BookInv Repr B s) (J : FlagInv p s) (hr : InRange s) {c : Call} (h : Recorded Dom N B c B') (hf : flag p c = .some p') :
    ∃ x, call F s c = .some x ∧ BookInv Repr B' x.2 := by
  cases c with
  | calculate i ps ms =>
    obtain ⟨id, d, hid, rfl, hs, r⟩ := I.setup L h
    have O := J.orderly hf id hid
    obtain ⟨y, hy⟩ := calculate_some (F := F) hid O hs (fun key hk => (L.key d ps r key hk).2)
    refine ⟨(.some y.1, y.2), by simp [Alg.call, hy], ?_⟩
    have hy' := hy
    unfold calculate at hy'
    simp only [Option.bind_eq_bind, Option.bind_eq_some_iff] at hy'
    obtain ⟨id', h1, d', h2, z, h3, h4⟩ := hy'
    rw [hid] at h1
    cases h1
    rw [hs] at h2
    cases h2
    cases h4
    exact I.at r
  | update i =>
    simp only [flag] at hf
    split at hf
    · rename_i hp
      cases hf
      have hi : i < s.slots.length := by rw [← J.len]; exact (List.getElem?_eq_some_iff.mp hp).1
      have hid : s.slots[i]? = .some s.slots[i] := List.getElem?_eq_getElem hi
      obtain ⟨s', hs⟩ := update_some hr hid ((J.own i _ hid).mpr hp)
      refine ⟨(.none, s'), by simp [Alg.call, hs], ?_⟩
      cases h
      unfold Alg.update at hs
      simp only [Option.bind_eq_bind, Option.bind_eq_some_iff] at hs
      obtain ⟨id, h1, buf, -, e⟩ := hs
      cases e
      refine ⟨I.slots, ?_, ?_, ?_, I.based⟩
      all_goals intro j
      all_goals simp only [setFn]
      · split
        · rename_i e; rw [e]; exact I.base id
        · exact I.base j
      · split
        · rename_i e; rw [e]; exact I.absent id
        · exact I.absent j
      · split
        · rename_i e; rw [e]; exact I.held id
        · exact I.held j
    · cases hf
  | prepare => cases h; exact ⟨_, rfl, I.slots, I.base, I.absent, I.held, I.based⟩
  | setBase i j =>
    cases h with
    | setBase h1 h2 =>
      rename_i id b
      rw [I.slots] at h1 h2
      refine ⟨(.none, _), by simp [Alg.call, setBase, h1, h2]; rfl, ?_⟩
      refine ⟨I.slots, ?_, ?_, ?_, ?_⟩
      · intro k
        simp only [setFn]
        split
        · simp only
          cases hb : B.pts b with
          | none => rw [I.absent b hb]; rfl
          | some ps => obtain ⟨d, hd, -⟩ := I.held b ps hb; rw [hd]; rfl
        · exact I.base k
      · intro k
        simp only [setFn]
        split
        · rename_i e; rw [e]; exact I.absent id
        · exact I.absent k
      · intro k
        simp only [setFn]
        split
        · rename_i e; rw [e]; exact I.held id
        · exact I.held k
      · intro k c hc
        simp only at hc ⊢
        split at hc
        · rw [Option.map_eq_some_iff] at hc
          obtain ⟨x, hx, rfl⟩ := hc
          rw [hx]; simp
        · exact I.based k c hc
  | swap i j =>
    cases h with
    | swap h1 h2 =>
      rename_i a b
      rw [I.slots] at h1 h2
      refine ⟨(.none, _), by simp [Alg.call, swap, swapList, h1, h2]; rfl, ?_⟩
      exact ⟨by simp only [I.slots], I.base, I.absent, I.held, I.based⟩

/-- Every list of recorded calls in turn succeeds, and at its end every function holds a triangulation of its points. -/
theorem BookInv.calls (L : Laws F ok Dom N Repr) : ∀ (cs : List Call) {B B' : Book} {p p' : List Bool} {s : Sys Dt K}, 1 ≤ s.k →
    BookInv Repr B s → FlagInv p s → InRange s → BufRange s → Recordeds Dom N B cs B' → flags p cs = .some p' →
    ∃ s', calls F s cs = .some s' ∧ BookInv Repr B' s' ∧ FlagInv p' s' := by
  intro cs
  induction cs with
  | nil =>
    intro B B' p p' s _ I J _ _ h hf
    cases h
    cases hf
    exact ⟨s, rfl, I, J⟩
  | cons c cs ih =>
    intro B B' p p' s hk I J r1 r2 h hf
    cases h with
    | cons hc h =>
      rename_i B1
      unfold flags at hf
      rw [List.foldlM_cons] at hf
      simp only [Option.bind_eq_bind] at hf
      rw [Option.bind_eq_some_iff] at hf
      obtain ⟨p1, h1, hf⟩ := hf
      obtain ⟨x, hx, I'⟩ := I.call L J r1 hc h1
      obtain ⟨q1, q2⟩ := range_call hk r1 r2 (J.orderly h1) hx
      have hk' := call_k hx
      obtain ⟨s', e, I2, J2⟩ := ih (by rw [hk']; exact hk) I' (J.call h1 hx) q1 q2 h hf
      exact ⟨s', by unfold Alg.calls; rw [hx]; exact e, I2, J2⟩

theorem range_new (n k : Nat) : InRange (newParallel n k : Sys Dt K) ∧ BufRange (newParallel n k : Sys Dt K) :=
  ⟨by simp [InRange, newParallel], by simp [BufRange, newParallel]⟩

end Verif.Alg

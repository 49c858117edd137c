import Verif.Alg.ModExec

/-!
# Triangulation objects that may panic

`Laws` asks that no operation of the triangulation panics.  `WLaws` asks only for what holds when none does.  To transfer the theorems,
`opt F` runs on after a panic of the triangulation, with `none` in place of the object: it obeys `Laws`, and what `F` does without a panic
`opt F` does as well.
-/

namespace Verif.Alg

open Verif.Fit

variable {Dt K : Type}

/-- What is needed of a fitness function whose triangulation may panic. -/
structure WLaws (F : Fun Dt K) (ok : K → Prop) (Dom : NP → Prop) (n : Nat) (Repr : Dt → List NP → Prop) : Prop where
  same : SameOK F ok
  build : ∀ ps d0 d, ps.length = n → (∀ p ∈ ps, Dom p) → F.new = some d0 → insAll F d0 ps = some d → Repr d ps
  upd : ∀ d qs o ps ps' ms d', Repr d qs → Repr o ps → Mutates Dom ps ps' ms → applyMuts F (F.set d o) ms = some d' → Repr d' ps'
  key : ∀ d ps, Repr d ps → ∀ k ∈ F.keys d, ok k ∧ ∃ v, F.val k = some v

/-- `F` that goes on with `none` after a panic of the triangulation. -/
def opt (F : Fun Dt K) : Fun (Option Dt) K where
  new := some F.new
  ins d p := some (d.bind fun d => F.ins d p)
  rem d p := some (d.bind fun d => F.rem d p)
  set d o := d.bind fun d => o.map fun o => F.set d o
  keys d := match d with | none => [] | some d => F.keys d
  hash := F.hash
  same := F.same
  val := F.val
  fin := F.fin

/-- `none` stands for anything. -/
def optRepr (Repr : Dt → List NP → Prop) : Option Dt → List NP → Prop
  | none, _ => True
  | some d, ps => Repr d ps

variable {F : Fun Dt K}

theorem opt_foldlM {α : Type} (f : Dt → α → Option Dt) : ∀ (l : List α) (d : Option Dt),
    l.foldlM (fun (d : Option Dt) a => some (d.bind fun d => f d a)) d = some (d.bind fun d => l.foldlM f d) := by
  intro l
  induction l with
  | nil => intro d; cases d <;> rfl
  | cons a l ih =>
    intro d
    rw [List.foldlM_cons]
    change l.foldlM _ _ = _
    rw [ih]
    cases d <;> rfl

theorem opt_insAll (d : Option Dt) (ps : List NP) : insAll (opt F) d ps = some (d.bind fun d => insAll F d ps) :=
  opt_foldlM F.ins ps d

theorem opt_applyMuts (d : Option Dt) (ms : List Mut) : applyMuts (opt F) d ms = some (d.bind fun d => applyMuts F d ms) := by
  unfold applyMuts
  have h1 := opt_foldlM F.rem (ms.map Mut.old) d
  have h2 := opt_foldlM F.ins (ms.map Mut.new)
  change ((ms.map Mut.old).foldlM (opt F).rem d).bind (fun d => (ms.map Mut.new).foldlM (opt F).ins d) = _
  have e1 : (ms.map Mut.old).foldlM (opt F).rem d = some (d.bind fun d => (ms.map Mut.old).foldlM F.rem d) := h1
  rw [e1]
  change (ms.map Mut.new).foldlM (opt F).ins _ = _
  refine (h2 _).trans ?_
  cases d <;> rfl

theorem WLaws.laws {ok : K → Prop} {Dom : NP → Prop} {n : Nat} {Repr : Dt → List NP → Prop} (W : WLaws F ok Dom n Repr) :
    Laws (opt F) ok Dom n (optRepr Repr) := by
  refine ⟨W.same, ?_, ?_, ?_⟩
  · intro ps hl hd
    refine ⟨F.new, _, rfl, opt_insAll _ _, ?_⟩
    cases h0 : F.new with
    | none => trivial
    | some d0 =>
      rw [Option.bind_some]
      cases h1 : insAll F d0 ps with
      | none => trivial
      | some d => exact W.build ps d0 d hl hd h0 h1
  · intro d qs o ps ps' ms hd ho M
    refine ⟨_, opt_applyMuts _ _, ?_⟩
    cases d with
    | none => trivial
    | some d =>
      cases o with
      | none => trivial
      | some o =>
        change optRepr Repr (applyMuts F (F.set d o) ms) ps'
        cases h : applyMuts F (F.set d o) ms with
        | none => trivial
        | some d' => exact W.upd d qs o ps ps' ms d' hd ho M h
  · intro d ps hr k hk
    cases d with
    | none => cases hk
    | some d => exact W.key d ps hr k hk

/-! ### What `F` does, `opt F` does -/

/-- The same evaluator with objects that may be missing. -/
def Fn.lift (fn : Fn Dt K) : Fn (Option Dt) K := ⟨fn.tri.map some, fn.base, fn.cache, fn.next⟩

/-- See `Fn.lift`. -/
def Sys.lift (s : Sys Dt K) : Sys (Option Dt) K := ⟨fun id => (s.fns id).lift, s.slots, s.bufs, s.cur, s.k⟩

/-- See `Fn.lift`. -/
def Ph.lift (p : Ph Dt K) : Ph (Option Dt) K := ⟨p.sys.lift, p.pc, p.tasks, p.chan, p.arr⟩

/-- See `Fn.lift`. -/
def Algo.lift (a : Algo Dt K) : Algo (Option Dt) K := ⟨a.sys.lift, a.pop, a.newPop, a.fit, a.muts, a.best, a.bestFit, a.gen⟩

theorem lift_setFn (s : Sys Dt K) (id : Nat) (fn : Fn Dt K) : (setFn s id fn).lift = setFn s.lift id fn.lift := by
  unfold setFn Sys.lift
  simp only [Sys.mk.injEq, and_self, and_true]
  funext j
  by_cases h : j = id <;> simp [h]

theorem lift_setup {fn : Fn Dt K} {bt : Nat → Option Dt} {ps : List NP} {ms : List Mut} {d : Dt} (h : setup F fn bt ps ms = some d) :
    setup (opt F) fn.lift (fun b => (bt b).map some) ps ms = some (some d) := by
  unfold setup at h ⊢
  unfold Fn.lift
  cases e : fn.tri with
  | none =>
    rw [e] at h
    simp only [Option.map_none] at h ⊢
    cases e0 : F.new with
    | none => rw [e0] at h; cases h
    | some d0 =>
      rw [e0] at h
      change insAll F d0 ps = some d at h
      change insAll (opt F) F.new ps = _
      rw [opt_insAll, e0, Option.bind_some, h]
  | some d1 =>
    rw [e] at h
    simp only [Option.map_some] at h ⊢
    cases eb : fn.base with
    | none => rw [eb] at h; cases h; rfl
    | some b =>
      rw [eb] at h
      simp only at h ⊢
      cases eo : bt b with
      | none => rw [eo] at h; cases h
      | some o =>
        rw [eo] at h
        change applyMuts F (F.set d1 o) ms = some d at h
        change applyMuts (opt F) (some (F.set d1 o)) ms = _
        rw [opt_applyMuts, Option.bind_some, h]

theorem lift_keyStep (bufs : Bool → Nat → Option (Entry K)) (k : Nat) (old out : List (Entry K)) (r : Ref) (key : K) :
    keyStep (opt F) bufs k old out r key = keyStep F bufs k old out r key := rfl

theorem lift_keyLoop (bufs : Bool → Nat → Option (Entry K)) (k : Nat) (old : List (Entry K)) (r : Ref) :
    ∀ (ks : List K) (out : List (Entry K)) (acc : List (K × ℚ)), keyLoop (opt F) bufs k old r ks out acc = keyLoop F bufs k old r ks out acc := by
  intro ks
  induction ks with
  | nil => intro out acc; rfl
  | cons key ks ih =>
    intro out acc
    unfold keyLoop
    rw [lift_keyStep]
    cases keyStep F bufs k old out r key with
    | none => rfl
    | some x => exact ih _ _

theorem lift_calculate {s s' : Sys Dt K} {i : Nat} {ps : List NP} {ms : List Mut} {v : ℚ} (h : calculate F s i ps ms = some (v, s')) :
    calculate (opt F) s.lift i ps ms = some (v, s'.lift) := by
  unfold calculate at h ⊢
  simp only [Option.bind_eq_bind, Option.bind_eq_some_iff] at h
  obtain ⟨id, h1, d, h2, x, h3, h4⟩ := h
  have e1 : s.lift.slots[i]? = some id := h1
  have e2 : setup (opt F) (s.lift.fns id) (fun b => (s.lift.fns b).tri) ps ms = some (some d) := lift_setup h2
  have e3 : keyLoop (opt F) s.lift.bufs s.lift.k (s.lift.fns id).next (s.lift.fns id).cache ((opt F).keys (some d)) [] [] = some x :=
    (lift_keyLoop _ _ _ _ _ _ _).trans h3
  rw [Option.some.injEq, Prod.mk.injEq] at h4
  rw [e1]
  simp only [Option.bind_eq_bind, Option.bind_some]
  rw [e2, Option.bind_some, e3, Option.bind_some, ← h4.1, ← h4.2, lift_setFn]
  rfl

theorem lift_update (s : Sys Dt K) (i : Nat) : update s.lift i = (update s i).map Sys.lift := by
  unfold update
  change (s.slots[i]?).bind _ = _
  cases h1 : s.slots[i]? with
  | none => rfl
  | some id =>
    simp only [Option.bind_eq_bind, Option.bind_some]
    change ((cacheOf s (s.fns id)).foldlM (putEntry s.k) (s.bufs s.cur)).bind _ = _
    cases (cacheOf s (s.fns id)).foldlM (putEntry s.k) (s.bufs s.cur) with
    | none => rfl
    | some buf =>
      simp only [Option.bind_some, Option.map_some, Option.some.injEq]
      have := lift_setFn s id { s.fns id with cache := .shared s.cur }
      have e : (setFn s.lift id { s.lift.fns id with cache := .shared s.lift.cur }) = (setFn s id { s.fns id with cache := .shared s.cur }).lift := this.symm
      rw [e]
      rfl

theorem lift_prepare (s : Sys Dt K) : prepare s.lift = (prepare s).lift := rfl

theorem lift_setBase (s : Sys Dt K) (i j : Nat) : setBase s.lift i j = (setBase s i j).map Sys.lift := by
  unfold setBase
  change (s.slots[i]?).bind (fun id => (s.slots[j]?).bind _) = _
  cases s.slots[i]? with
  | none => rfl
  | some id =>
    simp only [Option.bind_eq_bind, Option.bind_some]
    cases s.slots[j]? with
    | none => rfl
    | some b =>
      simp only [Option.bind_some, Option.map_some, Option.some.injEq]
      rw [lift_setFn]
      congr 1
      have e : ((s.fns b).lift.tri.map fun _ => b) = (s.fns b).tri.map fun _ => b := by
        unfold Fn.lift
        simp only [Option.map_map]
        rfl
      change Fn.mk _ ((s.fns b).lift.tri.map fun _ => b) _ _ = _
      rw [e]
      rfl

theorem lift_swap (s : Sys Dt K) (i j : Nat) : swap s.lift i j = (swap s i j).map Sys.lift := by
  unfold swap
  change (swapList s.slots i j).bind _ = _
  cases swapList s.slots i j <;> rfl

theorem lift_enabled {n : Nat} {p : Ph Dt K} {w : Who} : Enabled n p.lift w ↔ Enabled n p w := Iff.rfl

theorem lift_move {n : Nat} {pts : Nat → List NP} {muts : Nat → List Mut} {p q : Ph Dt K} {w : Who} (h : move F n pts muts p w = some q) :
    move (opt F) n pts muts p.lift w = some q.lift := by
  cases w with
  | main =>
    simp only [move] at h ⊢
    have ht : p.lift.pc = p.pc := rfl
    rw [ht]
    cases hp : p.pc with
    | sub k =>
      rw [hp] at h
      simp only at h ⊢
      split at h
      · rename_i hk
        rw [if_pos hk]
        simp only [Option.bind_eq_bind, Option.bind_eq_some_iff] at h
        obtain ⟨id, h1, h2⟩ := h
        cases h2
        change (p.sys.slots[k]?).bind _ = _
        rw [h1]
        rfl
      · rename_i hk
        rw [if_neg hk]
        cases h
        rfl
    | recv m =>
      rw [hp] at h
      simp only at h ⊢
      have ht : p.lift.chan = p.chan := rfl
      rw [ht]
      cases hc : p.chan with
      | nil => rw [hc] at h; cases h
      | cons x rest =>
        obtain ⟨i, v⟩ := x
        rw [hc] at h
        simp only [Option.bind_eq_bind, Option.bind_eq_some_iff] at h ⊢
        obtain ⟨s, h1, id, h2, h3⟩ := h
        cases h3
        have e := lift_update p.sys i
        rw [h1] at e
        exact ⟨s.lift, e, id, h2, rfl⟩
  | work i =>
    simp only [move] at h ⊢
    have ht : p.lift.tasks i = p.tasks i := rfl
    rw [ht]
    cases hp : p.tasks i with
    | idle => rw [hp] at h; cases h
    | ready id =>
      rw [hp] at h
      simp only [Option.bind_eq_bind, Option.bind_eq_some_iff] at h ⊢
      obtain ⟨d, h1, h2⟩ := h
      cases h2
      refine ⟨some d, lift_setup h1, ?_⟩
      unfold Ph.lift
      rw [lift_setFn]
      rfl
    | loop id r old todo acc =>
      rw [hp] at h
      cases todo with
      | nil =>
        simp only at h ⊢
        cases h
        unfold Ph.lift
        rw [lift_setFn]
        rfl
      | cons key todo =>
        simp only [Option.bind_eq_bind, Option.bind_eq_some_iff] at h ⊢
        obtain ⟨x, h1, h2⟩ := h
        cases h2
        refine ⟨x, h1, ?_⟩
        unfold Ph.lift
        rw [lift_setFn]
        rfl
    | done id v =>
      rw [hp] at h
      cases h
      rfl
    | sent id => rw [hp] at h; cases h
    | received id => rw [hp] at h; cases h

/-- Where `opt F` does not panic, `F` can panic in the set-up of `Calculate` only. -/
theorem move_some {n : Nat} {pts : Nat → List NP} {muts : Nat → List Mut} {p : Ph Dt K} {w : Who} (h : (move (opt F) n pts muts p.lift w).isSome)
    (hw : ∀ i id, w = .work i → p.tasks i ≠ .ready id) : (move F n pts muts p w).isSome := by
  cases w with
  | main =>
    simp only [move] at h ⊢
    have ht : p.lift.pc = p.pc := rfl
    rw [ht] at h
    cases hp : p.pc with
    | sub k =>
      rw [hp] at h
      simp only at h ⊢
      split at h
      · rename_i hk
        rw [if_pos hk]
        change Option.isSome ((p.sys.slots[k]?).bind _) = true at h
        cases h1 : p.sys.slots[k]? with
        | none => rw [h1] at h; cases h
        | some id => rfl
      · rename_i hk
        rw [if_neg hk]
        rfl
    | recv m =>
      rw [hp] at h
      simp only at h ⊢
      have ht : p.lift.chan = p.chan := rfl
      rw [ht] at h
      cases hc : p.chan with
      | nil => rw [hc] at h; cases h
      | cons x rest =>
        obtain ⟨i, v⟩ := x
        rw [hc] at h
        simp only at h ⊢
        change Option.isSome ((update p.sys.lift i).bind fun s => (p.sys.slots[i]?).bind _) = true at h
        rw [lift_update] at h
        cases h1 : update p.sys i with
        | none => rw [h1] at h; cases h
        | some s =>
          rw [h1] at h
          change Option.isSome ((p.sys.slots[i]?).bind _) = true at h
          change Option.isSome ((p.sys.slots[i]?).bind _) = true
          cases h2 : p.sys.slots[i]? with
          | none => rw [h2] at h; cases h
          | some id => rfl
  | work i =>
    simp only [move] at h ⊢
    have ht : p.lift.tasks i = p.tasks i := rfl
    rw [ht] at h
    cases hp : p.tasks i with
    | idle => rw [hp] at h; cases h
    | ready id => exact absurd hp (hw i id rfl)
    | loop id r old todo acc =>
      rw [hp] at h
      cases todo with
      | nil => rfl
      | cons key todo =>
        simp only at h ⊢
        change Option.isSome ((keyStep F p.sys.bufs p.sys.k old (p.sys.fns id).next r key).bind _) = true at h
        change Option.isSome ((keyStep F p.sys.bufs p.sys.k old (p.sys.fns id).next r key).bind _) = true
        cases h1 : keyStep F p.sys.bufs p.sys.k old (p.sys.fns id).next r key with
        | none => rw [h1] at h; cases h
        | some x => rfl
    | done id v => rfl
    | sent id => rw [hp] at h; cases h
    | received id => rw [hp] at h; cases h

theorem lift_run {n : Nat} {pts : Nat → List NP} {muts : Nat → List Mut} {p q : Ph Dt K} {l : List Who} (h : Run F n pts muts p l q) :
    Run (opt F) n pts muts p.lift l q.lift := by
  induction h with
  | nil => exact .nil _
  | snoc w _ he hm ih => exact .snoc w ih he (lift_move hm)

theorem lift_mutStep (μ : Mutator) (pop : List (List NP)) (a : List (List NP)) (b : List (List Mut)) (s : Sys Dt K) (i j : Nat) :
    mutStep μ pop (a, b, s.lift) i j = (mutStep μ pop (a, b, s) i j).map fun x => (x.1, x.2.1, x.2.2.lift) := by
  unfold mutStep
  simp only [Option.bind_eq_bind]
  cases pop[j]? with
  | none => rfl
  | some p =>
    cases a[i]? with
    | none => rfl
    | some q =>
      cases b[i]? with
      | none => rfl
      | some m =>
        simp only [Option.bind_some]
        cases setPts q p with
        | none => rfl
        | some r =>
          simp only [Option.bind_some, lift_setBase]
          cases setBase s i j <;> rfl

theorem lift_mutLoop (μ : Mutator) (pop : List (List NP)) (cutoff : Nat) : ∀ (m i j : Nat) (a : List (List NP)) (b : List (List Mut)) (s : Sys Dt K),
    mutLoop μ pop cutoff m i j (a, b, s.lift) = (mutLoop μ pop cutoff m i j (a, b, s)).map fun x => (x.1, x.2.1, x.2.2.lift) := by
  intro m
  induction m with
  | zero => intro i j a b s; rfl
  | succ m ih =>
    intro i j a b s
    unfold mutLoop
    split
    · rfl
    · rw [lift_mutStep]
      cases mutStep μ pop (a, b, s) i (if j < cutoff then j else 0) with
      | none => rfl
      | some x => exact ih _ _ _ _ _

theorem lift_newGeneration (μ : Mutator) (cutoff lim : Nat) (a : Algo Dt K) :
    newGeneration μ cutoff lim a.lift = (newGeneration μ cutoff lim a).map Algo.lift := by
  unfold newGeneration
  change ((List.range cutoff).foldlM (eliteStep a.pop) (a.newPop, a.muts)).bind _ = _
  cases (List.range cutoff).foldlM (eliteStep a.pop) (a.newPop, a.muts) with
  | none => rfl
  | some e =>
    simp only [Option.bind_eq_bind, Option.bind_some]
    change (mutLoop μ a.pop cutoff (lim - cutoff) cutoff 0 (e.1, e.2, a.sys.lift)).bind _ = _
    rw [lift_mutLoop]
    cases mutLoop μ a.pop cutoff (lim - cutoff) cutoff 0 (e.1, e.2, a.sys) <;> rfl

theorem lift_swapAlgo (a : Algo Dt K) (x : Nat × Nat) : swapAlgo a.lift x = (swapAlgo a x).map Algo.lift := by
  unfold swapAlgo
  change (swapList a.fit x.1 x.2).bind (fun f => (swapList a.pop x.1 x.2).bind fun p => (swap a.sys.lift x.1 x.2).bind _) = _
  cases swapList a.fit x.1 x.2 with
  | none => rfl
  | some f =>
    simp only [Option.bind_eq_bind, Option.bind_some]
    cases swapList a.pop x.1 x.2 with
    | none => rfl
    | some p =>
      simp only [Option.bind_some, lift_swap]
      cases swap a.sys x.1 x.2 <;> rfl

theorem lift_sort : ∀ (l : List (Nat × Nat)) (a : Algo Dt K), l.foldlM swapAlgo a.lift = (l.foldlM swapAlgo a).map Algo.lift := by
  intro l
  induction l with
  | nil => intro a; rfl
  | cons x l ih =>
    intro a
    rw [List.foldlM_cons, List.foldlM_cons, lift_swapAlgo]
    cases swapAlgo a x with
    | none => rfl
    | some b => exact ih b

theorem lift_updateFitnesses (srt : Sorter) (a : Algo Dt K) : updateFitnesses srt a.lift = (updateFitnesses srt a).map Algo.lift := by
  unfold updateFitnesses
  change ((srt a.fit).foldlM swapAlgo a.lift).bind _ = _
  rw [lift_sort]
  cases (srt a.fit).foldlM swapAlgo a with
  | none => rfl
  | some b =>
    simp only [Option.map_some, Option.bind_eq_bind, Option.bind_some]
    change (b.pop[0]?).bind (fun p => (setPts b.best p).bind fun c => (b.fit[0]?).bind _) = _
    cases b.pop[0]? with
    | none => rfl
    | some p =>
      simp only [Option.bind_some]
      cases setPts b.best p with
      | none => rfl
      | some c =>
        simp only [Option.bind_some]
        cases b.fit[0]? <;> rfl

theorem lift_start (s : Sys Dt K) : (Ph.start s).lift = Ph.start s.lift := rfl

theorem lift_newParallel (n k : Nat) : (newParallel n k : Sys Dt K).lift = newParallel n k := rfl

theorem lift_simpleInit (init : List (List NP)) (k : Nat) : simpleInit init k = (simpleInit init k : Option (Algo Dt K)).map Algo.lift := by
  unfold simpleInit
  cases init[0]? <;> rfl

theorem lift_new {srt : Sorter} {init : List (List NP)} {k : Nat} {l : List Who} {a : Algo Dt K} (h : NewSimple F srt init k l a) :
    NewSimple (opt F) srt init k l a.lift := by
  obtain ⟨a1, q, h1, h2, h3, h4⟩ := h
  refine ⟨a1.lift, q.lift, by rw [lift_simpleInit, h1]; rfl, lift_run h2, h3, ?_⟩
  have := lift_updateFitnesses srt { a1 with sys := q.sys, fit := collect a1.fit q.arr }
  rw [h4] at this
  exact this

theorem lift_step {srt : Sorter} {cutoff : Nat} {μ : Mutator} {l : List Who} {a a' : Algo Dt K} (h : SimpleStep F srt cutoff μ l a a') :
    SimpleStep (opt F) srt cutoff μ l a.lift a'.lift := by
  obtain ⟨a1, q, a2, h1, h2, h3, h4, rfl⟩ := h
  have e1 := lift_newGeneration μ cutoff a.pop.length a
  rw [h1] at e1
  have e4 := lift_updateFitnesses srt { a1 with sys := q.sys, fit := collect a1.fit q.arr }
  rw [h4] at e4
  exact ⟨a1.lift, q.lift, a2.lift, e1, lift_run h2, h3, e4, rfl⟩

theorem lift_exec {srt : Sorter} {cutoff : Nat} {M : Mutator → Prop} {init : List (List NP)} {k n : Nat} {a : Algo Dt K}
    (h : SimpleExec F srt cutoff M init k n a) : SimpleExec (opt F) srt cutoff M init k n a.lift := by
  induction h with
  | new h => exact .new (lift_new h)
  | step _ hμ hs ih => exact .step ih hμ (lift_step hs)

theorem lift_trace {srt : Sorter} {cutoff : Nat} {init : List (List NP)} {k : Nat} {μs : List Mutator} {a : Algo Dt K}
    (h : SimpleTrace F srt cutoff init k μs a) : SimpleTrace (opt F) srt cutoff init k μs a.lift := by
  induction h with
  | new h => exact .new (lift_new h)
  | step _ hs ih => exact .step ih (lift_step hs)

theorem lift_evalStart {srt : Sorter} {cutoff : Nat} {M : Mutator → Prop} {init : List (List NP)} {k : Nat} {b : Algo Dt K}
    (h : EvalStart F srt cutoff M init k b) : EvalStart (opt F) srt cutoff M init k b.lift := by
  rcases h with h | ⟨g, a, μ, h1, h2, h3⟩
  · left
    rw [lift_simpleInit, h]
    rfl
  · refine Or.inr ⟨g, a.lift, μ, lift_exec h1, h2, ?_⟩
    have := lift_newGeneration μ cutoff a.pop.length a
    rw [h3] at this
    exact this

/-! ### The modified genetic algorithm -/

theorem lift_combineStep {cutoff : Nat} {bs : List Ben} {a a' : Algo Dt K} {i : Nat} (h : combineStep F cutoff bs a i = some a') :
    combineStep (opt F) cutoff bs a.lift i = some a'.lift := by
  unfold combineStep at h ⊢
  split at h
  · cases h
  rename_i hc
  rw [if_neg hc]
  simp only [Option.bind_eq_bind, Option.bind_eq_some_iff] at h ⊢
  obtain ⟨m, h1, b, h2, h⟩ := h
  refine ⟨m, h1, b, h2, ?_⟩
  split at h
  · rename_i hb
    rw [if_pos hb]
    simp only [Option.bind_eq_some_iff] at h ⊢
    obtain ⟨p, e1, q, e2, r, e3, s, e4, r', e5, ⟨v, s1⟩, e6, s2, e7, e8⟩ := h
    have f4 := lift_setBase a.sys i (i % cutoff)
    rw [e4] at f4
    have f7 := lift_update s1 i
    rw [e7] at f7
    cases e8
    exact ⟨p, e1, q, e2, r, e3, s.lift, f4, r', e5, (v, s1.lift), lift_calculate e6, s2.lift, f7, rfl⟩
  · rename_i hb
    rw [if_neg hb]
    cases h
    rfl

theorem lift_combine {cutoff : Nat} {bs : List Ben} {a a' : Algo Dt K} (h : combineMutations F cutoff bs a = some a') :
    combineMutations (opt F) cutoff bs a.lift = some a'.lift := by
  unfold combineMutations at h ⊢
  change (List.range' (a.pop.length - cutoff) cutoff).foldlM (combineStep (opt F) cutoff bs) a.lift = _
  generalize List.range' (a.pop.length - cutoff) cutoff = l at h
  induction l generalizing a with
  | nil => cases h; rfl
  | cons i l ih =>
    rw [List.foldlM_cons] at h ⊢
    simp only [Option.bind_eq_bind, Option.bind_eq_some_iff] at h ⊢
    obtain ⟨b, h1, h2⟩ := h
    exact ⟨b.lift, lift_combineStep h1, ih h2⟩

theorem lift_modEval {cutoff : Nat} {l : List Who} {b c : Algo Dt K} (h : ModEval F cutoff l b c) : ModEval (opt F) cutoff l b.lift c.lift := by
  obtain ⟨q, st, h1, h2, h3, h4⟩ := h
  exact ⟨q.lift, st, lift_run h1, h2, h3, lift_combine h4⟩

theorem lift_modStep {srt : Sorter} {cutoff : Nat} {μ : Mutator} {l : List Who} {a a' : Algo Dt K} (h : ModStep F srt cutoff μ l a a') :
    ModStep (opt F) srt cutoff μ l a.lift a'.lift := by
  obtain ⟨b, c, d, h1, h2, h3, rfl⟩ := h
  have e1 := lift_newGeneration μ cutoff (a.pop.length - cutoff) a
  rw [h1] at e1
  have e3 := lift_updateFitnesses srt c
  rw [h3] at e3
  exact ⟨b.lift, c.lift, d.lift, e1, lift_modEval h2, e3, rfl⟩

theorem lift_newMod {srt : Sorter} {cutoff : Nat} {init : List (List NP)} {k : Nat} {l : List Who} {a : Algo Dt K}
    (h : NewMod F srt cutoff init k l a) : NewMod (opt F) srt cutoff init k l a.lift := by
  obtain ⟨b, q, st, h1, h2, h3, h4, h5⟩ := h
  refine ⟨b.lift, q.lift, st, by rw [lift_simpleInit, h1]; rfl, lift_run h2, h3, h4, ?_⟩
  have := lift_updateFitnesses srt { b with sys := q.sys, fit := st.1 }
  rw [h5] at this
  exact this

theorem lift_posExec {srt : Sorter} {cutoff : Nat} {Dom : NP → Prop} {N : Nat} {init : List (List NP)} {k n : Nat} {a : Algo Dt K}
    (h : PosExec F srt cutoff Dom N init k n a) : PosExec (opt F) srt cutoff Dom N init k n a.lift := by
  induction h with
  | new h => exact .new (lift_newMod h)
  | step _ hq hμ hs ih => exact .step ih hq hμ (lift_modStep hs)

theorem lift_modStart {srt : Sorter} {cutoff : Nat} {Dom : NP → Prop} {N : Nat} {init : List (List NP)} {k : Nat} {b : Algo Dt K}
    (h : ModStart F srt cutoff Dom N init k b) : ModStart (opt F) srt cutoff Dom N init k b.lift := by
  rcases h with h | ⟨g, a, μ, h1, h2, h3, h4⟩
  · left
    rw [lift_simpleInit, h]
    rfl
  · refine Or.inr ⟨g, a.lift, μ, lift_posExec h1, h2, h3, ?_⟩
    have := lift_newGeneration μ cutoff (a.pop.length - cutoff) a
    rw [h4] at this
    exact this

/-! ### Fitness and memory accesses -/

theorem plain_opt (d : Dt) : plain (opt F) (some d) = plain F d := rfl

theorem lift_cacheOf (s : Sys Dt K) (fn : Fn Dt K) : cacheOf s.lift fn.lift = cacheOf s fn := rfl

theorem lift_reads (n : Nat) (p : Ph Dt K) (w : Who) : reads (opt F) n p.lift w = reads F n p w := by
  cases w with
  | main => rfl
  | work i =>
    simp only [reads]
    have ht : p.lift.tasks i = p.tasks i := rfl
    rw [ht]
    cases p.tasks i with
    | loop id r old todo acc => cases todo <;> rfl
    | _ => rfl

theorem lift_writes (n : Nat) (p : Ph Dt K) (w : Who) : writes n p.lift w = writes n p w := by
  cases w with
  | main => rfl
  | work i =>
    simp only [writes]
    have ht : p.lift.tasks i = p.tasks i := rfl
    rw [ht]
    cases p.tasks i with
    | ready id =>
      simp only
      have : (p.lift.sys.fns id).tri = none ↔ (p.sys.fns id).tri = none := by
        change (p.sys.fns id).tri.map some = none ↔ _
        rw [Option.map_eq_none_iff]
      rw [this]
      rfl
    | loop id r old todo acc => cases todo <;> rfl
    | _ => rfl

end Verif.Alg

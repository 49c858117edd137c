import Verif.Alg.Cache

/-!
# Invariants over arbitrary sequences of calls on the evaluator
-/

namespace Verif.Alg

open Verif.Fit

variable {Dt K : Type} {F : Fun Dt K}

/-- Every entry reachable from the evaluator is valid. -/
structure SysValid (F : Fun Dt K) (ok : K → Prop) (s : Sys Dt K) : Prop where
  bufs : ∀ b x e, s.bufs b x = some e → Valid F ok e
  next : ∀ id, ∀ e ∈ (s.fns id).next, Valid F ok e

theorem SysValid.new {ok : K → Prop} (n k : Nat) : SysValid F ok (newParallel n k : Sys Dt K) :=
  ⟨by simp [newParallel], by simp [newParallel]⟩

theorem SysValid.setFn {ok : K → Prop} {s : Sys Dt K} (h : SysValid F ok s) {id : Nat} {fn : Fn Dt K} (hf : ∀ e ∈ fn.next, Valid F ok e) :
    SysValid F ok (setFn s id fn) := by
  refine ⟨h.bufs, ?_⟩
  intro j e he
  simp only [Alg.setFn] at he
  split at he
  · exact hf e he
  · exact h.next j e he

theorem SysValid.readOK {ok : K → Prop} {s : Sys Dt K} (h : SysValid F ok s) (id : Nat) (r : Ref) :
    ReadOK F ok s.bufs (s.fns id).next [] r := ⟨fun b _ x e => h.bufs b x e, fun _ => h.next id, by simp⟩

/-- `Calculate` on a valid evaluator: the value is the uncached one. -/
theorem calculate_spec_at {ok : K → Prop} (S : SameOK F ok) {s : Sys Dt K} (h : SysValid F ok s) {i : Nat} {ps : List NP} {ms : List Mut} {v : ℚ}
    {s' : Sys Dt K} (hok : ∀ id d, s.slots[i]? = some id → setup F (s.fns id) (fun b => (s.fns b).tri) ps ms = some d → ∀ key ∈ F.keys d, ok key)
    (e : calculate F s i ps ms = some (v, s')) :
    ∃ id d out, s.slots[i]? = some id ∧ setup F (s.fns id) (fun b => (s.fns b).tri) ps ms = some d ∧ plain F d = some v ∧
      s' = Alg.setFn s id ⟨some d, none, .own, out⟩ ∧ (∀ e ∈ out, Valid F ok e) := by
  unfold calculate at e
  simp only [Option.bind_eq_bind] at e
  rw [Option.bind_eq_some_iff] at e
  obtain ⟨id, h1, e⟩ := e
  rw [Option.bind_eq_some_iff] at e
  obtain ⟨d, h2, e⟩ := e
  rw [Option.bind_eq_some_iff] at e
  obtain ⟨x, h3, e⟩ := e
  rw [Option.some.injEq, Prod.mk.injEq] at e
  obtain ⟨⟨l, hl, e1⟩, e2⟩ := keyLoop_valid S _ _ _ (h.readOK id _) (hok id d h1 h2) x h3
  rw [List.nil_append] at e1
  refine ⟨id, d, x.1, h1, h2, ?_, e.2.symm, e2⟩
  unfold plain
  rw [hl, ← e.1, e1]
  rfl

/-- See `calculate_spec_at`. -/
theorem calculate_spec {ok : K → Prop} (S : SameOK F ok) (hok : ∀ d, ∀ key ∈ F.keys d, ok key) {s : Sys Dt K} (h : SysValid F ok s)
    {i : Nat} {ps : List NP} {ms : List Mut} {v : ℚ} {s' : Sys Dt K} (e : calculate F s i ps ms = some (v, s')) :
    ∃ id d out, s.slots[i]? = some id ∧ setup F (s.fns id) (fun b => (s.fns b).tri) ps ms = some d ∧ plain F d = some v ∧
      s' = Alg.setFn s id ⟨some d, none, .own, out⟩ ∧ (∀ e ∈ out, Valid F ok e) := calculate_spec_at S h (fun _ d _ _ => hok d) e

theorem SysValid.cacheOf {ok : K → Prop} {s : Sys Dt K} (h : SysValid F ok s) (id : Nat) : ∀ e, some e ∈ cacheOf s (s.fns id) → Valid F ok e := by
  intro e he
  unfold Alg.cacheOf at he
  split at he
  · simp at he
  · simp only [List.mem_map, Option.some.injEq, exists_eq_right] at he; exact h.next id e he
  · obtain ⟨x, -, hx⟩ := List.mem_map.mp he; exact h.bufs _ x e hx

/-- Every call keeps entries valid. -/
theorem SysValid.call_at {ok : K → Prop} (S : SameOK F ok) {s : Sys Dt K} (h : SysValid F ok s) {c : Call} {x : Option ℚ × Sys Dt K}
    (hok : ∀ i ps ms, c = .calculate i ps ms → ∀ id d, s.slots[i]? = some id → setup F (s.fns id) (fun b => (s.fns b).tri) ps ms = some d →
      ∀ key ∈ F.keys d, ok key) (e : call F s c = some x) : SysValid F ok x.2 := by
  cases c with
  | calculate i ps ms =>
    simp only [Alg.call, Option.map_eq_some_iff] at e
    obtain ⟨⟨v, s'⟩, e, rfl⟩ := e
    obtain ⟨id, d, out, -, -, -, rfl, ho⟩ := calculate_spec_at S h (hok i ps ms rfl) e
    exact h.setFn ho
  | update i =>
    simp only [Alg.call, Option.map_eq_some_iff] at e
    obtain ⟨s', e, rfl⟩ := e
    unfold Alg.update at e
    simp only [Option.bind_eq_bind] at e
    rw [Option.bind_eq_some_iff] at e
    obtain ⟨id, h1, e⟩ := e
    rw [Option.bind_eq_some_iff] at e
    obtain ⟨buf, h2, e⟩ := e
    rw [Option.some.injEq] at e
    subst e
    have hb := put_valid _ _ _ (h.cacheOf id) (fun x e he => h.bufs _ x e he) h2
    refine ⟨?_, (h.setFn (fn := { s.fns id with cache := .shared s.cur }) (h.next id)).next⟩
    intro b x e he
    simp only at he
    split at he
    · exact hb x e he
    · exact h.bufs b x e he
  | prepare =>
    simp only [Alg.call, Option.some.injEq] at e
    subst e
    exact ⟨h.bufs, h.next⟩
  | setBase i j =>
    simp only [Alg.call, Option.map_eq_some_iff] at e
    obtain ⟨s', e, rfl⟩ := e
    unfold Alg.setBase at e
    simp only [Option.bind_eq_bind] at e
    rw [Option.bind_eq_some_iff] at e
    obtain ⟨id, h1, e⟩ := e
    rw [Option.bind_eq_some_iff] at e
    obtain ⟨b, h2, e⟩ := e
    rw [Option.some.injEq] at e
    subst e
    exact h.setFn (h.next id)
  | swap i j =>
    simp only [Alg.call, Option.map_eq_some_iff] at e
    obtain ⟨s', e, rfl⟩ := e
    unfold Alg.swap at e
    simp only [Option.bind_eq_bind] at e
    rw [Option.bind_eq_some_iff] at e
    obtain ⟨l, h1, e⟩ := e
    rw [Option.some.injEq] at e
    subst e
    exact ⟨h.bufs, h.next⟩

theorem SysValid.calls {ok : K → Prop} (S : SameOK F ok) (hok : ∀ d, ∀ key ∈ F.keys d, ok key) : ∀ (cs : List Call) {s s' : Sys Dt K},
    SysValid F ok s → calls F s cs = some s' → SysValid F ok s' := by
  intro cs
  induction cs with
  | nil => intro s s' h e; cases e; exact h
  | cons c cs ih =>
    intro s s' h e
    unfold Alg.calls at e
    simp only [Option.bind_eq_bind] at e
    rw [Option.bind_eq_some_iff] at e
    obtain ⟨x, hx, e⟩ := e
    exact ih (h.call_at S (fun _ _ _ _ _ d _ _ => hok d) hx) e

/-! ### Index ranges -/

/-- The order in which the algorithms use a member: `Calculate`, then `Update`, and so on. -/
def Orderly (s : Sys Dt K) : Call → Prop
  | .calculate i _ _ => ∀ id, s.slots[i]? = some id → (s.fns id).cache ≠ .own
  | .update i => ∀ id, s.slots[i]? = some id → (s.fns id).cache = .own
  | _ => True

/-- A sequence of calls in that order. -/
def OrderlyCalls (F : Fun Dt K) : Sys Dt K → List Call → Prop
  | _, [] => True
  | s, c :: cs => Orderly s c ∧ ∀ x, call F s c = some x → OrderlyCalls F x.2 cs

/-- Entries waiting to be stored have an index below the size of the shared caches. -/
def InRange (s : Sys Dt K) : Prop := ∀ id, ∀ e ∈ (s.fns id).next, e.hash < 2 ^ s.k

/-- Entries in the shared caches likewise. -/
def BufRange (s : Sys Dt K) : Prop := ∀ b x e, s.bufs b x = some e → e.hash < 2 ^ s.k

theorem refLen_index {k : Nat} {old : List (Entry K)} {r : Ref} (hr : r ≠ .own) (h : Nat) : indexOf h (refLen k old r) < refLen k old r := by
  cases r with
  | fresh => exact indexOf_lt (len := 2) (by norm_num) (by norm_num)
  | own => exact absurd rfl hr
  | shared b => exact indexOf_lt_pow h k

theorem refLen_le {k : Nat} (hk : 1 ≤ k) {old : List (Entry K)} {r : Ref} (hr : r ≠ .own) : refLen k old r ≤ 2 ^ k := by
  cases r with
  | fresh => exact le_trans (by simp [refLen]) (Nat.pow_le_pow_right (by norm_num) hk : 2 ^ 1 ≤ 2 ^ k)
  | own => exact absurd rfl hr
  | shared b => exact le_rfl

theorem keyStep_range {bufs : Bool → Nat → Option (Entry K)} {k : Nat} (hk : 1 ≤ k) {old out : List (Entry K)} {r : Ref} (hr : r ≠ .own)
    (hb : ∀ b x e, bufs b x = some e → e.hash < 2 ^ k) {key : K} {x : ℚ × Entry K} (hx : keyStep F bufs k old out r key = some x) :
    x.2.hash < 2 ^ k := by
  have hi := lt_of_lt_of_le (refLen_index (k := k) (old := old) hr (F.hash key)) (refLen_le hk hr)
  unfold keyStep at hx
  simp only [Option.bind_eq_bind] at hx
  rw [Option.bind_eq_some_iff] at hx
  obtain ⟨c, hc, hx⟩ := hx
  cases hf : c.filter (fun e => F.same e.key key) with
  | none =>
    rw [hf] at hx
    simp only at hx
    rw [Option.bind_eq_some_iff] at hx
    obtain ⟨v, hv, hx⟩ := hx
    cases hx
    exact hi
  | some e =>
    rw [hf] at hx
    cases hx
    have hce := (Option.filter_eq_some_iff.mp hf).1
    subst hce
    unfold readRef at hc
    split at hc
    · rw [Option.some.injEq] at hc
      cases r with
      | fresh => cases hc
      | own => exact absurd rfl hr
      | shared b => exact hb b _ e hc
    · cases hc

theorem keyLoop_range {bufs : Bool → Nat → Option (Entry K)} {k : Nat} (hk : 1 ≤ k) {old : List (Entry K)} {r : Ref} (hr : r ≠ .own)
    (hb : ∀ b x e, bufs b x = some e → e.hash < 2 ^ k) : ∀ (ks : List K) (out : List (Entry K)) (acc : List (K × ℚ)),
    (∀ e ∈ out, e.hash < 2 ^ k) → ∀ x, keyLoop F bufs k old r ks out acc = some x → ∀ e ∈ x.1, e.hash < 2 ^ k := by
  intro ks
  induction ks with
  | nil => intro out acc h x hx; cases hx; exact h
  | cons key ks ih =>
    intro out acc h x hx
    unfold keyLoop at hx
    simp only [Option.bind_eq_bind] at hx
    rw [Option.bind_eq_some_iff] at hx
    obtain ⟨y, hy, hx⟩ := hx
    refine ih _ _ ?_ x hx
    intro e he
    rcases List.mem_append.mp he with h' | h'
    · exact h e h'
    · simp only [List.mem_singleton] at h'
      exact h' ▸ keyStep_range hk hr hb hy

theorem call_k {s : Sys Dt K} {c : Call} {x : Option ℚ × Sys Dt K} (e : call F s c = some x) : x.2.k = s.k := by
  cases c with
  | calculate i ps ms =>
    simp only [Alg.call, Option.map_eq_some_iff] at e
    obtain ⟨y, e, rfl⟩ := e
    unfold calculate at e
    simp only [Option.bind_eq_bind, Option.bind_eq_some_iff] at e
    obtain ⟨id, -, d, -, z, -, e⟩ := e
    cases e
    rfl
  | update i =>
    simp only [Alg.call, Option.map_eq_some_iff] at e
    obtain ⟨y, e, rfl⟩ := e
    unfold Alg.update at e
    simp only [Option.bind_eq_bind, Option.bind_eq_some_iff] at e
    obtain ⟨id, -, d, -, e⟩ := e
    cases e
    rfl
  | prepare => cases e; rfl
  | setBase i j =>
    simp only [Alg.call, Option.map_eq_some_iff] at e
    obtain ⟨y, e, rfl⟩ := e
    unfold Alg.setBase at e
    simp only [Option.bind_eq_bind, Option.bind_eq_some_iff] at e
    obtain ⟨id, -, d, -, e⟩ := e
    cases e
    rfl
  | swap i j =>
    simp only [Alg.call, Option.map_eq_some_iff] at e
    obtain ⟨y, e, rfl⟩ := e
    unfold Alg.swap at e
    simp only [Option.bind_eq_bind, Option.bind_eq_some_iff] at e
    obtain ⟨l, -, e⟩ := e
    cases e
    rfl

/-- Orderly calls keep indexes in range. -/
theorem range_call {s : Sys Dt K} (hk : 1 ≤ s.k) (h1 : InRange s) (h2 : BufRange s) {c : Call} (ho : Orderly s c)
    {x : Option ℚ × Sys Dt K} (e : call F s c = some x) : InRange x.2 ∧ BufRange x.2 := by
  cases c with
  | calculate i ps ms =>
    simp only [Alg.call, Option.map_eq_some_iff] at e
    obtain ⟨y, e, rfl⟩ := e
    unfold calculate at e
    simp only [Option.bind_eq_bind, Option.bind_eq_some_iff] at e
    obtain ⟨id, hid, d, -, z, hz, e⟩ := e
    cases e
    refine ⟨?_, h2⟩
    intro j e he
    simp only [setFn] at he
    split at he
    · exact keyLoop_range hk (ho id hid) h2 _ _ _ (by simp) z hz e he
    · exact h1 j e he
  | update i =>
    simp only [Alg.call, Option.map_eq_some_iff] at e
    obtain ⟨y, e, rfl⟩ := e
    unfold Alg.update at e
    simp only [Option.bind_eq_bind, Option.bind_eq_some_iff] at e
    obtain ⟨id, hid, buf, hbuf, e⟩ := e
    cases e
    constructor
    · intro j e he
      simp only [setFn] at he
      split at he
      · exact h1 id e he
      · exact h1 j e he
    · have := put_valid (P := fun e => e.hash < 2 ^ s.k) _ _ _ ?_ (fun x e he => h2 _ x e he) hbuf
      · intro b x e he
        simp only at he
        split at he
        · exact this x e he
        · exact h2 b x e he
      · intro e he
        unfold cacheOf at he
        rw [ho id hid] at he
        simp only [List.mem_map, Option.some.injEq, exists_eq_right] at he
        exact h1 id e he
  | prepare => cases e; exact ⟨h1, h2⟩
  | setBase i j =>
    simp only [Alg.call, Option.map_eq_some_iff] at e
    obtain ⟨y, e, rfl⟩ := e
    unfold Alg.setBase at e
    simp only [Option.bind_eq_bind, Option.bind_eq_some_iff] at e
    obtain ⟨id, -, d, -, e⟩ := e
    cases e
    refine ⟨?_, h2⟩
    intro j e he
    simp only [setFn] at he
    split at he
    · exact h1 id e he
    · exact h1 j e he
  | swap i j =>
    simp only [Alg.call, Option.map_eq_some_iff] at e
    obtain ⟨y, e, rfl⟩ := e
    unfold Alg.swap at e
    simp only [Option.bind_eq_bind, Option.bind_eq_some_iff] at e
    obtain ⟨l, -, e⟩ := e
    cases e
    exact ⟨h1, h2⟩

theorem range_calls : ∀ (cs : List Call) {s s' : Sys Dt K}, 1 ≤ s.k → InRange s → BufRange s → OrderlyCalls F s cs → calls F s cs = some s' →
    InRange s' ∧ BufRange s' ∧ s'.k = s.k := by
  intro cs
  induction cs with
  | nil => intro s s' _ h1 h2 _ e; cases e; exact ⟨h1, h2, rfl⟩
  | cons c cs ih =>
    intro s s' hk h1 h2 ho e
    unfold Alg.calls at e
    simp only [Option.bind_eq_bind, Option.bind_eq_some_iff] at e
    obtain ⟨x, hx, e⟩ := e
    obtain ⟨r1, r2⟩ := range_call hk h1 h2 ho.1 hx
    have hk' := call_k hx
    obtain ⟨a, b, c⟩ := ih (by rw [hk']; exact hk) r1 r2 (ho.2 x hx) e
    exact ⟨a, b, c.trans hk'⟩

/-- `Update` of a member that was just calculated succeeds. -/
theorem update_some {s : Sys Dt K} (h1 : InRange s) {i id : Nat} (hid : s.slots[i]? = some id) (hc : (s.fns id).cache = .own) :
    ∃ s', update s i = some s' := by
  obtain ⟨buf, hb, -⟩ := putAll (k := s.k) (P := fun _ => True) (s.fns id).next (s.bufs s.cur) (fun e he => ⟨h1 id e he, trivial⟩) (by simp)
  unfold update
  rw [hid]
  simp only [Option.bind_eq_bind, Option.bind_some]
  have : cacheOf s (s.fns id) = (s.fns id).next.map some := by unfold cacheOf; rw [hc]
  rw [this, hb]
  exact ⟨_, rfl⟩

/-- `Calculate` can only fail in the triangulation or in the value of a piece. -/
theorem calculate_some {s : Sys Dt K} {i id : Nat} (hid : s.slots[i]? = some id) (hc : (s.fns id).cache ≠ .own) {ps : List NP} {ms : List Mut} {d : Dt}
    (hs : setup F (s.fns id) (fun b => (s.fns b).tri) ps ms = some d) (hv : ∀ key ∈ F.keys d, ∃ v, F.val key = some v) :
    ∃ r, calculate F s i ps ms = some r := by
  obtain ⟨x, hx⟩ := keyLoop_some (F := F) (bufs := s.bufs) (old := (s.fns id).next) (fun h => refLen_index (k := s.k) hc h) (F.keys d) [] [] hv
  unfold calculate
  rw [hid]
  simp only [Option.bind_eq_bind, Option.bind_some]
  rw [hs]
  simp only [Option.bind_some]
  rw [hx]
  exact ⟨_, rfl⟩

end Verif.Alg

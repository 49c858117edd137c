import Verif.Alg.Book
import Verif.Alg.Opt

/-!
# Recorded calls on a fitness function that obeys `Laws`: the value of a last `Calculate`
-/

namespace Verif.Alg

open Verif.Fit

variable {Dt K : Type} {F : Fun Dt K} {ok : K → Prop} {Dom : NP → Prop} {N : Nat} {Repr : Dt → List NP → Prop}

/-- Recorded calls in turn succeed; at their end every function holds a triangulation of its points and all cache entries are valid. -/
theorem book_valid (L : Laws F ok Dom N Repr) : ∀ (cs : List Call) {B B' : Book} {p p' : List Bool} {s : Sys Dt K}, 1 ≤ s.k →
    BookInv Repr B s → FlagInv p s → InRange s → BufRange s → SysValid F ok s → Recordeds Dom N B cs B' → flags p cs = some p' →
    ∃ s', calls F s cs = some s' ∧ BookInv Repr B' s' ∧ FlagInv p' s' ∧ InRange s' ∧ SysValid F ok s' := by
  intro cs
  induction cs with
  | nil =>
    intro B B' p p' s _ I J r1 _ V h hf
    cases h
    cases hf
    exact ⟨s, rfl, I, J, r1, V⟩
  | cons c cs ih =>
    intro B B' p p' s hk I J r1 r2 V h hf
    cases h with
    | cons hc h =>
      rename_i B1
      unfold flags at hf
      rw [List.foldlM_cons] at hf
      simp only [Option.bind_eq_bind] at hf
      rw [Option.bind_eq_some_iff] at hf
      obtain ⟨p1, h1, hf⟩ := hf
      obtain ⟨x, hx, I'⟩ := I.call L J r1 hc h1
      obtain ⟨q1, q2⟩ := range_call hk r1 r2 (J.orderly h1) hx
      have hk' := call_k hx
      have V' : SysValid F ok x.2 := by
        refine V.call_at L.same ?_ hx
        rintro i ps ms rfl id d e1 e2
        obtain ⟨id', d', e3, _, e4, r⟩ := I.setup L hc
        rw [e1] at e3
        cases e3
        rw [e2] at e4
        cases e4
        exact fun key hk => (L.key d ps r key hk).1
      obtain ⟨s', e, R⟩ := ih (by rw [hk']; exact hk) I' (J.call h1 hx) q1 q2 V' h hf
      exact ⟨s', by unfold Alg.calls; rw [hx]; exact e, R⟩

theorem recordeds_last : ∀ {cs : List Call} {B B' : Book} {c : Call}, Recordeds Dom N B (cs ++ [c]) B' →
    ∃ B1, Recordeds Dom N B cs B1 ∧ Recorded Dom N B1 c B'
  | [], B, B', c, h => by
    cases h with
    | cons h1 h2 => cases h2; exact ⟨B, .nil _, h1⟩
  | c0 :: cs, B, B', c, h => by
    cases h with
    | cons h1 h2 =>
      obtain ⟨B1, a, b⟩ := recordeds_last h2
      exact ⟨B1, .cons h1 a, b⟩

/-- The value of a last `Calculate` is the uncached fitness of a triangulation of the points it is given. -/
theorem book_last (L : Laws F ok Dom N Repr) {n k : Nat} (hk : 1 ≤ k) {cs : List Call} {i : Nat} {ps : List NP} {ms : List Mut} {B : Book} {p : List Bool}
    (hB : Recordeds Dom N (Book.new n) (cs ++ [.calculate i ps ms]) B) (hf : flags (List.replicate n false) (cs ++ [.calculate i ps ms]) = some p) :
    ∃ s v s' id d, calls F (newParallel n k) cs = some s ∧ calculate F s i ps ms = some (v, s') ∧ s.slots[i]? = some id ∧
      setup F (s.fns id) (fun b => (s.fns b).tri) ps ms = some d ∧ (s'.fns id).tri = some d ∧ Repr d ps ∧ plain F d = some v := by
  obtain ⟨B1, hB1, hlast⟩ := recordeds_last hB
  unfold flags at hf
  rw [List.foldlM_append] at hf
  simp only [Option.bind_eq_bind, Option.bind_eq_some_iff] at hf
  obtain ⟨p1, hf1, hf2⟩ := hf
  simp only [List.foldlM_cons, List.foldlM_nil, Option.bind_eq_bind, Option.bind_eq_some_iff] at hf2
  obtain ⟨p2, hf2, -⟩ := hf2
  obtain ⟨s, hs, I1, J1, r1, V1⟩ := book_valid L cs (s := newParallel n k) hk (BookInv.new n k) (FlagInv.new n k) (range_new n k).1 (range_new n k).2
    (SysValid.new n k) hB1 hf1
  obtain ⟨x, hx, -⟩ := I1.call L J1 r1 hlast hf2
  simp only [Alg.call, Option.map_eq_some_iff] at hx
  obtain ⟨⟨v, s'⟩, hv, -⟩ := hx
  obtain ⟨id, d, hid, -, hset, rep⟩ := I1.setup L hlast
  have hok : ∀ id' d', s.slots[i]? = some id' → setup F (s.fns id') (fun b => (s.fns b).tri) ps ms = some d' → ∀ key ∈ F.keys d', ok key := by
    intro id' d' e1 e2
    rw [hid] at e1
    cases e1
    rw [hset] at e2
    cases e2
    exact fun key hk => (L.key d ps rep key hk).1
  obtain ⟨id', d', out, h1, h2, h3, rfl, -⟩ := calculate_spec_at L.same V1 hok hv
  rw [hid] at h1
  cases h1
  rw [hset] at h2
  cases h2
  exact ⟨s, v, _, id, d, hs, hv, hid, hset, by simp [setFn], rep, h3⟩

theorem lift_call {s s' : Sys Dt K} {c : Call} {r : Option ℚ} (h : call F s c = some (r, s')) : call (opt F) s.lift c = some (r, s'.lift) := by
  cases c with
  | calculate i ps ms =>
    simp only [call, Option.map_eq_some_iff, Prod.mk.injEq] at h ⊢
    obtain ⟨⟨v, s1⟩, h1, h2, rfl⟩ := h
    exact ⟨(v, s1.lift), lift_calculate h1, h2, rfl⟩
  | update i =>
    simp only [call, Option.map_eq_some_iff, Prod.mk.injEq] at h ⊢
    obtain ⟨s1, h1, h2, rfl⟩ := h
    exact ⟨s1.lift, by rw [lift_update, h1]; rfl, h2, rfl⟩
  | prepare =>
    simp only [call, Option.some.injEq, Prod.mk.injEq] at h ⊢
    obtain ⟨h1, rfl⟩ := h
    exact ⟨h1, rfl⟩
  | setBase i j =>
    simp only [call, Option.map_eq_some_iff, Prod.mk.injEq] at h ⊢
    obtain ⟨s1, h1, h2, rfl⟩ := h
    exact ⟨s1.lift, by rw [lift_setBase, h1]; rfl, h2, rfl⟩
  | swap i j =>
    simp only [call, Option.map_eq_some_iff, Prod.mk.injEq] at h ⊢
    obtain ⟨s1, h1, h2, rfl⟩ := h
    exact ⟨s1.lift, by rw [lift_swap, h1]; rfl, h2, rfl⟩

theorem lift_calls : ∀ (cs : List Call) {s s' : Sys Dt K}, calls F s cs = some s' → calls (opt F) s.lift cs = some s'.lift := by
  intro cs
  induction cs with
  | nil => intro s s' h; cases h; rfl
  | cons c cs ih =>
    intro s s' h
    unfold calls at h ⊢
    simp only [Option.bind_eq_bind, Option.bind_eq_some_iff] at h ⊢
    obtain ⟨⟨r, s1⟩, h1, h2⟩ := h
    exact ⟨(r, s1.lift), lift_call h1, ih h2⟩

/-- `book_last` for triangulations that may panic. -/
theorem book_last_weak (W : WLaws F ok Dom N Repr) {n k : Nat} (hk : 1 ≤ k) {cs : List Call} {i : Nat} {ps : List NP} {ms : List Mut} {B : Book} {p : List Bool}
    (hB : Recordeds Dom N (Book.new n) (cs ++ [.calculate i ps ms]) B) (hf : flags (List.replicate n false) (cs ++ [.calculate i ps ms]) = some p)
    {s s' : Sys Dt K} {v : ℚ} (hs : calls F (newParallel n k) cs = some s) (hv : calculate F s i ps ms = some (v, s')) :
    ∃ id d, s.slots[i]? = some id ∧ (s'.fns id).tri = some d ∧ Repr d ps ∧ plain F d = some v := by
  obtain ⟨t, v', t', id, d, h1, h2, h3, h4, h5, h6, h7⟩ := book_last W.laws hk hB hf
  have e1 := lift_calls cs hs
  rw [lift_newParallel, h1] at e1
  cases e1
  have e2 := lift_calculate hv
  rw [h2] at e2
  cases e2
  have h5' : (s'.fns id).tri.map some = some d := h5
  rw [Option.map_eq_some_iff] at h5'
  obtain ⟨d', e3, rfl⟩ := h5'
  exact ⟨id, d', h3, e3, h6, h7⟩

end Verif.Alg

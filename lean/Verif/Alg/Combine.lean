import Verif.Alg.Ben
import Verif.Alg.Simple

/-!
# `combineMutations`
-/

namespace Verif.Alg

open Verif.Fit

variable {Dt K : Type} {F : Fun Dt K} {ok : K → Prop} {Dom : NP → Prop} {N : Nat} {Repr : Dt → List NP → Prop}

/-- `Calculate` and `Update` of one member without concurrency. -/
theorem eval_one (S : SameOK F ok) {s : Sys Dt K} {i id : Nat} (hid : s.slots[i]? = some id) (hk : 1 ≤ s.k)
    (hb : ∀ b x e, s.bufs b x = some e → Good F ok s.k e) (hc : (s.fns id).cache ≠ .own) {ps : List NP} {ms : List Mut} {d : Dt}
    (hs : setup F (s.fns id) (fun b => (s.fns b).tri) ps ms = some d) (hkey : ∀ key ∈ F.keys d, ok key ∧ ∃ v, F.val key = some v) :
    ∃ v s1 s2, calculate F s i ps ms = some (v, s1) ∧ update s1 i = some s2 ∧ plain F d = some v ∧ s2.slots = s.slots ∧ s2.cur = s.cur ∧
      s2.k = s.k ∧ (∀ b x e, s2.bufs b x = some e → Good F ok s.k e) ∧ (s2.fns id).tri = some d ∧ (s2.fns id).base = none ∧
      (s2.fns id).cache = .shared s.cur ∧ ∀ j, j ≠ id → s2.fns j = s.fns j := by
  obtain ⟨x, hx⟩ := keyLoop_some (F := F) (bufs := s.bufs) (k := s.k) (old := (s.fns id).next) (r := (s.fns id).cache)
    (refLen_index hc) (F.keys d) [] [] (fun key h => (hkey key h).2)
  have RO : ReadOK F ok s.bufs (s.fns id).next [] (s.fns id).cache :=
    ⟨fun b _ x e he => (hb b x e he).2, fun h => absurd h hc, by simp⟩
  obtain ⟨⟨l, hl, hx2⟩, hv⟩ := keyLoop_valid S (F.keys d) [] [] RO (fun key h => (hkey key h).1) x hx
  have hr := keyLoop_range hk hc (fun b x e he => (hb b x e he).1) (F.keys d) [] [] (by simp) x hx
  obtain ⟨buf, hbuf, hgood⟩ := putAll (k := s.k) (P := Good F ok s.k) x.1 (s.bufs s.cur) (fun e he => ⟨hr e he, hr e he, hv e he⟩) (hb s.cur)
  refine ⟨F.fin x.2, setFn s id ⟨some d, none, .own, x.1⟩,
    { setFn s id ⟨some d, none, .shared s.cur, x.1⟩ with bufs := fun b => if b = s.cur then buf else s.bufs b }, ?_, ?_, ?_, rfl, rfl, rfl, ?_, ?_, ?_, ?_, ?_⟩
  · unfold calculate
    simp only [hid, hs, hx, Option.bind_eq_bind, Option.bind_some]
  · unfold update
    have e1 : (setFn s id ⟨some d, none, .own, x.1⟩).slots = s.slots := rfl
    have e2 : (setFn s id ⟨some d, none, .own, x.1⟩).fns id = ⟨some d, none, .own, x.1⟩ := by simp [setFn]
    rw [e1, hid]
    simp only [e2, cacheOf, Option.bind_eq_bind, Option.bind_some]
    have e3 : (setFn s id ⟨some d, none, .own, x.1⟩).bufs = s.bufs := rfl
    have e4 : (setFn s id ⟨some d, none, .own, x.1⟩).cur = s.cur := rfl
    have e5 : (setFn s id ⟨some d, none, .own, x.1⟩).k = s.k := rfl
    rw [e3, e4, e5, hbuf]
    simp only [Option.bind_some, Option.some.injEq]
    unfold setFn
    simp only [Sys.mk.injEq, and_true]
    funext j
    by_cases hj : j = id
    · simp [hj]
    · simp [hj]
  · unfold plain
    rw [hl, hx2]
    rfl
  · intro b y e he
    simp only at he
    split at he
    · exact hgood y e he
    · exact hb b y e he
  · simp [setFn]
  · simp [setFn]
  · simp [setFn]
  · intro j hj
    simp [setFn, hj]

/-- Performing recorded mutations. -/
theorem apply_spec : ∀ (ms : List Mut) (ps : List NP), (ms.map Mut.index).Nodup → (∀ m ∈ ms, m.index < ps.length) →
    ∃ r, ms.foldlM applyMut ps = some r ∧ r.length = ps.length ∧ (∀ m ∈ ms, r[m.index]? = some m.new) ∧
      ∀ i, (∀ m ∈ ms, m.index ≠ i) → r[i]? = ps[i]? := by
  intro ms
  induction ms with
  | nil => intro ps _ _; exact ⟨ps, rfl, rfl, by simp, by simp⟩
  | cons m ms ih =>
    intro ps hn hl
    rw [List.map_cons, List.nodup_cons] at hn
    have hm := hl m (by simp)
    obtain ⟨r, h1, h2, h3, h4⟩ := ih (ps.set m.index m.new) hn.2 (by
      intro m' h'
      rw [List.length_set]
      exact hl m' (by simp [h']))
    refine ⟨r, ?_, by rw [h2, List.length_set], ?_, ?_⟩
    · rw [List.foldlM_cons]
      have : applyMut ps m = some (ps.set m.index m.new) := by unfold applyMut; rw [if_pos hm]
      rw [this]
      exact h1
    · intro m' h'
      rcases List.mem_cons.mp h' with rfl | h'
      · rw [h4 _ (by
          intro m'' h'' e
          exact hn.1 (List.mem_map.mpr ⟨m'', h'', e⟩)), List.getElem?_set_self hm]
      · exact h3 m' h'
    · intro i hi
      rw [h4 i (fun m' h' => hi m' (by simp [h'])), List.getElem?_set_ne (hi m (by simp))]

/-- A function that has not been evaluated in this generation. -/
def Dormant (Repr : Dt → List NP → Prop) (fn : Fn Dt K) : Prop :=
  fn.base = none ∧ fn.cache ≠ .own ∧ (fn.tri = none ∨ ∃ d qs, fn.tri = some d ∧ Repr d qs)

/-- The beneficial mutations of each base fit its points. -/
def BenFit (Dom : NP → Prop) (bs : List Ben) (pop : List (List NP)) : Prop :=
  ∀ (j : Nat) b q, bs[j]? = some b → pop[j]? = some q → ∃ r, (b.map Prod.fst).foldlM applyMut q = some r ∧ Mutates Dom q r (b.map Prod.fst)

/-- After the members below `i` have been combined. -/
structure CombInv (F : Fun Dt K) (ok : K → Prop) (Dom : NP → Prop) (N : Nat) (Repr : Dt → List NP → Prop) (cutoff lim : Nat) (bs : List Ben)
    (c a : Algo Dt K) (i : Nat) : Prop where
  shape : Shape F ok Dom N a
  len : a.pop.length = c.pop.length
  slots : a.sys.slots = c.sys.slots
  cur : a.sys.cur = c.sys.cur
  k : a.sys.k = c.sys.k
  newPop : a.newPop = c.newPop
  best : a.best = c.best
  bestFit : a.bestFit = c.bestFit
  gen : a.gen = c.gen
  low : ∀ x : Nat, x < lim → a.pop[x]? = c.pop[x]? ∧ a.fit[x]? = c.fit[x]? ∧ a.sys.fns (idAt c.sys x) = c.sys.fns (idAt c.sys x)
  comb : ∀ x : Nat, lim ≤ x → x < i → ∀ b q, bs[x % cutoff]? = some b → c.pop[x % cutoff]? = some q → b ≠ [] →
    ∃ p v, a.pop[x]? = some p ∧ a.fit[x]? = some v ∧ (b.map Prod.fst).foldlM applyMut q = some p ∧
      Evaluated F Repr a.sys (idAt c.sys x) p v
  out : ∀ x : Nat, lim ≤ x → x < i → bs[x % cutoff]? = some [] → a.fit[x]? = some 0 ∧ a.pop[x]? = c.pop[x]? ∧ Dormant Repr (a.sys.fns (idAt c.sys x))
  todo : ∀ x : Nat, i ≤ x → x < c.pop.length → a.pop[x]? = c.pop[x]? ∧ Dormant Repr (a.sys.fns (idAt c.sys x))

theorem CombInv.step (L : Laws F ok Dom N Repr) {cutoff lim : Nat} {bs : List Ben} {c a : Algo Dt K} {i : Nat} (hc : 1 ≤ cutoff) (hcl : cutoff ≤ lim)
    (hlen : bs.length = cutoff) (hfit : BenFit Dom bs c.pop) (hE : ∀ x < lim, EvalAt F Repr c x) (hli : lim ≤ i) (hi : i < c.pop.length)
    (I : CombInv F ok Dom N Repr cutoff lim bs c a i) :
    ∃ a', combineStep F cutoff bs a i = some a' ∧ CombInv F ok Dom N Repr cutoff lim bs c a' (i + 1) := by
  have S := I.shape
  have hjl : i % cutoff < cutoff := Nat.mod_lt _ hc
  have hc0 : ¬ cutoff = 0 := by omega
  have hid : ∀ x, idAt a.sys x = idAt c.sys x := idAt_slots I.slots
  have hdist : ∀ x, x < c.pop.length → x ≠ i → idAt c.sys x ≠ idAt c.sys i := by
    intro x hx hne e
    rw [← hid, ← hid] at e
    exact hne (idAt_inj S.nodup (by rw [S.lenS, I.len]; exact hx) (by rw [S.lenS, I.len]; exact hi) e)
  have hm : a.muts[i]? = some (a.muts[i]'(by rw [S.lenM, I.len]; exact hi)) := List.getElem?_eq_getElem _
  have hb : bs[i % cutoff]? = some (bs[i % cutoff]'(by rw [hlen]; exact hjl)) := List.getElem?_eq_getElem _
  generalize bs[i % cutoff]'(by rw [hlen]; exact hjl) = b at hb
  obtain ⟨t1, t2, t3, t4⟩ := I.todo i le_rfl hi
  have hp : a.pop[i]? = some (a.pop[i]'(by rw [I.len]; exact hi)) := List.getElem?_eq_getElem _
  obtain ⟨q, vq, hq, hvq, dq, e1, e2, e3, e4, e5⟩ := hE (i % cutoff) (by omega)
  obtain ⟨l1, l2, l3⟩ := I.low (i % cutoff) (by omega)
  have hslot : a.sys.slots[i]? = some (idAt c.sys i) := by rw [← hid]; exact slots_idAt (by rw [S.lenS, I.len]; exact hi)
  have hslotj : a.sys.slots[i % cutoff]? = some (idAt c.sys (i % cutoff)) := by rw [← hid]; exact slots_idAt (by rw [S.lenS, I.len]; omega)
  have hpo := S.pop _ (List.getElem_mem (by rw [I.len]; exact hi : i < a.pop.length))
  have hqo := S.pop q (List.mem_of_getElem? (by rw [l1]; exact hq))
  by_cases hbn : 0 < b.length
  · obtain ⟨r, hr1, M⟩ := hfit _ b q hb hq
    have hset : setPts (a.pop[i]'(by rw [I.len]; exact hi)) q = some q := by unfold setPts; rw [if_pos (hpo.1.trans hqo.1.symm)]
    have hsb : setBase a.sys i (i % cutoff) = some (setFn a.sys (idAt c.sys i) { a.sys.fns (idAt c.sys i) with base := some (idAt c.sys (i % cutoff)) }) := by
      unfold setBase
      simp only [hslot, hslotj, Option.bind_eq_bind, Option.bind_some, l3, e1, Option.map_some]
    have hne := hdist (i % cutoff) (by omega) (by omega)
    have hset2 : ∃ d, setup F ((setFn a.sys (idAt c.sys i) { a.sys.fns (idAt c.sys i) with base := some (idAt c.sys (i % cutoff)) }).fns (idAt c.sys i))
        (fun y => ((setFn a.sys (idAt c.sys i) { a.sys.fns (idAt c.sys i) with base := some (idAt c.sys (i % cutoff)) }).fns y).tri) r (b.map Prod.fst) = some d ∧ Repr d r := by
      have f1 : (setFn a.sys (idAt c.sys i) { a.sys.fns (idAt c.sys i) with base := some (idAt c.sys (i % cutoff)) }).fns (idAt c.sys i) =
          { a.sys.fns (idAt c.sys i) with base := some (idAt c.sys (i % cutoff)) } := by simp [setFn]
      rw [f1]
      unfold setup
      rcases t4 with t4 | ⟨d, qs, t4, hd⟩
      · obtain ⟨d0, d, h1, h2, h3⟩ := L.build r (by rw [M.len]; exact hqo.1) (M.domain hqo.2)
        refine ⟨d, ?_, h3⟩
        simp only [t4, h1, Option.bind_eq_bind, Option.bind_some]
        exact h2
      · obtain ⟨d', h1, h2⟩ := L.upd d qs dq q r _ hd e4 M
        refine ⟨d', ?_, h2⟩
        simp only [t4, setFn, if_neg hne, l3, e1, Option.bind_eq_bind, Option.bind_some]
        exact h1
    obtain ⟨d, hsd, hrd⟩ := hset2
    obtain ⟨v, s1, s2, g1, g2, g3, g4, g5, g6, g7, g8, g9, g10, g11⟩ := eval_one L.same (s := setFn a.sys (idAt c.sys i) { a.sys.fns (idAt c.sys i) with base := some (idAt c.sys (i % cutoff)) })
      (i := i) (id := idAt c.sys i) hslot S.k S.bufs (by simp only [setFn, if_true]; exact t3) hsd (L.key d r hrd)
    have hfn : ∀ j, j ≠ idAt c.sys i → s2.fns j = a.sys.fns j := by
      intro j hj
      rw [g11 j hj]
      simp only [setFn, if_neg hj]
    refine ⟨{ a with pop := a.pop.set i r, muts := a.muts.set i (b.map Prod.fst), fit := a.fit.set i v, sys := s2 }, ?_, ?_⟩
    · unfold combineStep
      simp only [hc0, if_false, hm, hb, hbn, if_true, hp, l1, hq, hset, hsb, hr1, g1, g2, Option.bind_eq_bind, Option.bind_some]
    · refine ⟨?_, ?_, g4.trans I.slots, g5.trans I.cur, g6.trans I.k, I.newPop, I.best, I.bestFit, I.gen, ?_, ?_, ?_, ?_⟩
      · refine ⟨by simpa using S.pos, by simpa using S.lenN, by simpa using S.lenF, by simpa using S.lenM, ?_, ?_, ?_, ?_, ?_, S.newPop, S.best⟩
        · show s2.slots.length = (a.pop.set i r).length
          rw [g4, List.length_set]; exact S.lenS
        · show s2.slots.Nodup
          rw [g4]; exact S.nodup
        · show 1 ≤ s2.k
          rw [g6]; exact S.k
        · intro x y e he
          show Good F ok s2.k e
          rw [g6]
          exact g7 x y e he
        · intro p hp'
          rcases List.mem_or_eq_of_mem_set hp' with h' | h'
          · exact S.pop p h'
          · subst h'
            exact ⟨by rw [M.len]; exact hqo.1, M.domain hqo.2⟩
      · simpa using I.len
      · intro x hx
        obtain ⟨k1, k2, k3⟩ := I.low x hx
        have hxi : i ≠ x := by omega
        refine ⟨?_, ?_, ?_⟩
        · simp only; rw [List.getElem?_set_ne hxi]; exact k1
        · simp only; rw [List.getElem?_set_ne hxi]; exact k2
        · simp only; rw [hfn _ (hdist x (by omega) (by omega))]; exact k3
      · intro x h1 h2 b' q' hb' hq' hbn'
        by_cases hxi : x = i
        · subst hxi
          rw [hb] at hb'
          cases hb'
          rw [hq] at hq'
          cases hq'
          refine ⟨r, v, ?_, ?_, hr1, d, g8, g9, ?_, hrd, g3⟩
          · simp only; rw [List.getElem?_set_self (by rw [I.len]; exact hi)]
          · simp only; rw [List.getElem?_set_self (by rw [S.lenF, I.len]; exact hi)]
          · simp only; rw [g10, g5]
        · obtain ⟨p, v', k1, k2, k3, d', k4, k5, k6, k7, k8⟩ := I.comb x h1 (by omega) b' q' hb' hq' hbn'
          have hf := hfn _ (hdist x (by omega) hxi)
          refine ⟨p, v', ?_, ?_, k3, d', ?_, ?_, ?_, k7, k8⟩
          · simp only; rw [List.getElem?_set_ne (Ne.symm hxi)]; exact k1
          · simp only; rw [List.getElem?_set_ne (Ne.symm hxi)]; exact k2
          · simp only; rw [hf]; exact k4
          · simp only; rw [hf]; exact k5
          · simp only; rw [hf, k6, g5]; rfl
      · intro x h1 h2 hb'
        by_cases hxi : x = i
        · subst hxi
          rw [hb] at hb'
          cases hb'
          simp at hbn
        · obtain ⟨k1, k2, k3⟩ := I.out x h1 (by omega) hb'
          have hf := hfn _ (hdist x (by omega) hxi)
          refine ⟨?_, ?_, ?_⟩
          · simp only; rw [List.getElem?_set_ne (Ne.symm hxi)]; exact k1
          · simp only; rw [List.getElem?_set_ne (Ne.symm hxi)]; exact k2
          · simp only; rw [hf]; exact k3
      · intro x h1 h2
        obtain ⟨k1, k2⟩ := I.todo x (by omega) h2
        refine ⟨?_, ?_⟩
        · simp only; rw [List.getElem?_set_ne (by omega)]; exact k1
        · simp only; rw [hfn _ (hdist x h2 (by omega))]; exact k2
  · have hb0 : b = [] := by
      cases b with
      | nil => rfl
      | cons _ _ => simp at hbn
    subst hb0
    refine ⟨{ a with muts := a.muts.set i [], fit := a.fit.set i 0 }, ?_, ?_⟩
    · unfold combineStep
      simp only [hc0, if_false, hm, hb, hbn, Option.bind_eq_bind, Option.bind_some]
    · refine ⟨?_, I.len, I.slots, I.cur, I.k, I.newPop, I.best, I.bestFit, I.gen, ?_, ?_, ?_, ?_⟩
      · exact ⟨S.pos, S.lenN, by simpa using S.lenF, by simpa using S.lenM, S.lenS, S.nodup, S.k, S.bufs, S.pop, S.newPop, S.best⟩
      · intro x hx
        obtain ⟨k1, k2, k3⟩ := I.low x hx
        refine ⟨k1, ?_, k3⟩
        simp only; rw [List.getElem?_set_ne (by omega)]; exact k2
      · intro x h1 h2 b' q' hb' hq' hbn'
        by_cases hxi : x = i
        · subst hxi
          rw [hb] at hb'
          cases hb'
          exact absurd rfl hbn'
        · obtain ⟨p, v', k1, k2, k3, k4⟩ := I.comb x h1 (by omega) b' q' hb' hq' hbn'
          refine ⟨p, v', k1, ?_, k3, k4⟩
          simp only; rw [List.getElem?_set_ne (Ne.symm hxi)]; exact k2
      · intro x h1 h2 hb'
        by_cases hxi : x = i
        · subst hxi
          refine ⟨?_, t1, t2, t3, t4⟩
          simp only; rw [List.getElem?_set_self (by rw [S.lenF, I.len]; exact hi)]
        · obtain ⟨k1, k2, k3⟩ := I.out x h1 (by omega) hb'
          refine ⟨?_, k2, k3⟩
          simp only; rw [List.getElem?_set_ne (Ne.symm hxi)]; exact k1
      · intro x h1 h2
        exact I.todo x (by omega) h2

/-- `combineMutations` does not panic, and what it leaves. -/
theorem combine_spec (L : Laws F ok Dom N Repr) {cutoff : Nat} {bs : List Ben} {c : Algo Dt K} (hc : 1 ≤ cutoff) (hcl : 2 * cutoff ≤ c.pop.length)
    (hlen : bs.length = cutoff) (hfit : BenFit Dom bs c.pop) (S : Shape F ok Dom N c) (hE : ∀ x < c.pop.length - cutoff, EvalAt F Repr c x)
    (hD : ∀ x, c.pop.length - cutoff ≤ x → x < c.pop.length → Dormant Repr (c.sys.fns (idAt c.sys x))) :
    ∃ a, combineMutations F cutoff bs c = some a ∧ CombInv F ok Dom N Repr cutoff (c.pop.length - cutoff) bs c a c.pop.length := by
  have key : ∀ n, n ≤ cutoff → ∃ a, (List.range' (c.pop.length - cutoff) n).foldlM (combineStep F cutoff bs) c = some a ∧
      CombInv F ok Dom N Repr cutoff (c.pop.length - cutoff) bs c a (c.pop.length - cutoff + n) := by
    intro n
    induction n with
    | zero =>
      intro _
      refine ⟨c, rfl, S, rfl, rfl, rfl, rfl, rfl, rfl, rfl, rfl, fun x _ => ⟨rfl, rfl, rfl⟩, ?_, ?_, ?_⟩
      · intro x h1 h2; omega
      · intro x h1 h2; omega
      · intro x h1 h2; exact ⟨rfl, hD x (by omega) h2⟩
    | succ n ih =>
      intro hn
      obtain ⟨a, ha, I⟩ := ih (by omega)
      obtain ⟨a', ha', I'⟩ := I.step L hc (by omega) hlen hfit hE (by omega) (by omega)
      refine ⟨a', ?_, I'⟩
      rw [List.range'_concat, List.foldlM_append, ha]
      simp only [Option.bind_eq_bind, Option.bind_some, List.foldlM_cons, List.foldlM_nil, one_mul]
      rw [ha']
      rfl
  obtain ⟨a, ha, I⟩ := key cutoff le_rfl
  refine ⟨a, ha, ?_⟩
  rw [show c.pop.length - cutoff + cutoff = c.pop.length from by omega] at I
  exact I

end Verif.Alg

import Verif.Alg.Combine

/-!
# Executions of the modified genetic algorithm
-/

namespace Verif.Alg

open Verif.Fit

variable {Dt K : Type} {F : Fun Dt K} {ok : K → Prop} {Dom : NP → Prop} {N : Nat} {Repr : Dt → List NP → Prop}

/-- All fitnesses are positive. -/
def Positive (F : Fun Dt K) (Repr : Dt → List NP → Prop) : Prop := ∀ d ps v, Repr d ps → plain F d = some v → 0 < v

/-- The fitnesses of the newly evaluated points `new x` of the first `lim` members are positive. -/
def FreshPos (F : Fun Dt K) (Repr : Dt → List NP → Prop) (lim : Nat) (new : Nat → List NP → Prop) : Prop :=
  ∀ x ps, x < lim → new x ps → ∀ d v, Repr d ps → plain F d = some v → 0 < v

theorem Positive.fresh (P : Positive F Repr) {lim : Nat} {new : Nat → List NP → Prop} : FreshPos F Repr lim new := fun _ ps _ _ d v => P d ps v

/-- The fitnesses of all members but the last `cutoff` are positive. -/
def FrontPos (cutoff : Nat) (a : Algo Dt K) : Prop := ∀ x < a.pop.length - cutoff, ∃ v, a.fit[x]? = some v ∧ 0 < v

/-- A member is evaluated, or left out, with fitness 0. -/
def MMember (F : Fun Dt K) (Repr : Dt → List NP → Prop) : MemRel Dt K := fun s id p v =>
  Evaluated F Repr s id p v ∨ (v = 0 ∧ Dormant Repr (s.fns id))

theorem mmember_slots (s : Sys Dt K) (l : List Nat) (id : Nat) (p : List NP) (v : ℚ) (h : MMember F Repr s id p v) :
    MMember F Repr { s with slots := l } id p v := h

/-- The invariant of the modified algorithm between steps. -/
structure MInv (F : Fun Dt K) (ok : K → Prop) (Dom : NP → Prop) (N : Nat) (Repr : Dt → List NP → Prop) (a : Algo Dt K) : Prop where
  shape : Shape F ok Dom N a
  members : Members (MMember F Repr) a
  sorted : a.fit.Pairwise (· ≥ ·)
  best : a.pop[0]? = some a.best
  bestFit : a.fit[0]? = some a.bestFit

theorem sorted_get {l : List ℚ} (hs : l.Pairwise (· ≥ ·)) {x y : Nat} {v w : ℚ} (hxy : x ≤ y) (hx : l[x]? = some v) (hy : l[y]? = some w) : w ≤ v := by
  obtain ⟨h1, rfl⟩ := List.getElem?_eq_some_iff.mp hx
  obtain ⟨h2, rfl⟩ := List.getElem?_eq_some_iff.mp hy
  rcases Nat.lt_or_ge x y with h | h
  · exact List.pairwise_iff_getElem.mp hs x y h1 h2 h
  · have : x = y := by omega
    subst this
    exact le_rfl

/-- If a list has `n` positive values in front, a sorted permutation of it has so too. -/
theorem front_positive {l l0 : List ℚ} (hs : l.Pairwise (· ≥ ·)) (hp : l.Perm l0) {n : Nat} (hn : n ≤ l0.length) (h : ∀ x < n, ∃ v, l0[x]? = some v ∧ 0 < v) :
    ∀ x < n, ∃ v, l[x]? = some v ∧ 0 < v := by
  intro x hx
  have hxl : x < l.length := by rw [hp.length_eq]; omega
  refine ⟨l[x], List.getElem?_eq_getElem hxl, ?_⟩
  by_contra hneg
  have c1 : n ≤ l0.countP (fun v => decide (0 < v)) := by
    have e : (l0.take n).countP (fun v => decide (0 < v)) = (l0.take n).length := by
      rw [List.countP_eq_length]
      intro v hv
      obtain ⟨y, hy⟩ := List.getElem?_of_mem hv
      have hyn : y < n := by
        have := (List.getElem?_eq_some_iff.mp hy).1
        rw [List.length_take] at this
        omega
      rw [List.getElem?_take_of_lt hyn] at hy
      obtain ⟨w, hw, hw0⟩ := h y hyn
      rw [hy] at hw
      cases hw
      simpa using hw0
    have := List.Sublist.countP_le (p := fun v => decide (0 < v)) (List.take_sublist n l0)
    rw [e, List.length_take] at this
    omega
  have c2 : l.countP (fun v => decide (0 < v)) ≤ x := by
    have e : l.countP (fun v => decide (0 < v)) = (l.take x).countP (fun v => decide (0 < v)) + (l.drop x).countP (fun v => decide (0 < v)) := by
      rw [← List.countP_append, List.take_append_drop]
    have e0 : (l.drop x).countP (fun v => decide (0 < v)) = 0 := by
      rw [List.countP_eq_zero]
      intro v hv
      obtain ⟨y, hy⟩ := List.getElem?_of_mem hv
      rw [List.getElem?_drop] at hy
      have := sorted_get hs (by omega) (List.getElem?_eq_getElem hxl) hy
      simp only [decide_eq_true_eq, not_lt]
      exact this.trans (not_lt.mp hneg)
    have := List.countP_le_length (p := fun v => decide (0 < v)) (l := l.take x)
    rw [List.length_take] at this
    omega
  rw [hp.countP_eq] at c2
  omega

theorem MInv.evalAt {cutoff : Nat} {a : Algo Dt K} (I : MInv F ok Dom N Repr a) (P : FrontPos cutoff a) : ∀ x < a.pop.length - cutoff, EvalAt F Repr a x := by
  intro x hx
  obtain ⟨v, hv, h0⟩ := P x hx
  have hxl : x < a.pop.length := by omega
  have hp : a.pop[x]? = some a.pop[x] := List.getElem?_eq_getElem hxl
  have hid := slots_idAt (s := a.sys) (i := x) (by rw [I.shape.lenS]; exact hxl)
  rcases I.members x _ _ _ hp hv hid with h | h
  · exact ⟨_, v, hp, hv, h⟩
  · exact absurd h.1 (ne_of_gt h0)

/-- Every function of a member can be put to use. -/
theorem MInv.dormant {a : Algo Dt K} (I : MInv F ok Dom N Repr a) {x : Nat} (hx : x < a.pop.length) :
    Dormant Repr (a.sys.fns (idAt a.sys x)) := by
  have hp : a.pop[x]? = some a.pop[x] := List.getElem?_eq_getElem hx
  have hf : a.fit[x]? = some (a.fit[x]'(by rw [I.shape.lenF]; exact hx)) := List.getElem?_eq_getElem _
  have hid := slots_idAt (s := a.sys) (i := x) (by rw [I.shape.lenS]; exact hx)
  rcases I.members x _ _ _ hp hf hid with ⟨d, h1, h2, h3, h4, _⟩ | h
  · exact ⟨h2, by rw [h3]; simp, Or.inr ⟨d, _, h1, h4⟩⟩
  · exact h.2

/-- The state before the evaluation of a step. -/
structure GenOK (F : Fun Dt K) (ok : K → Prop) (Dom : NP → Prop) (N : Nat) (Repr : Dt → List NP → Prop) (cutoff : Nat) (b : Algo Dt K)
    (T : Nat → Dt) (V : Nat → ℚ) : Prop where
  shape : Shape F ok Dom N b
  len : 2 * cutoff ≤ b.pop.length
  phase : PhaseOK F ok (b.pop.length - cutoff) (ptsOf b) (mutsOf b) b.sys T V
  repr : ∀ i < b.pop.length - cutoff, Repr (T i) (ptsOf b i)
  base : ∀ j < cutoff, b.fit[j]? = some (V j)
  muts : ∀ x < b.pop.length - cutoff, ∀ q, b.pop[x % cutoff]? = some q → Mutates Dom q (ptsOf b x) (mutsOf b x)
  dormant : ∀ x, b.pop.length - cutoff ≤ x → x < b.pop.length → Dormant Repr (b.sys.fns (idAt b.sys x))

theorem MInv.gen (L : Laws F ok Dom N Repr) {μ : Mutator} (hμ : MutOK Dom N μ) {cutoff : Nat} {a : Algo Dt K} (I : MInv F ok Dom N Repr a)
    (P : FrontPos cutoff a) (hc : 1 ≤ cutoff) (hcp : 2 * cutoff ≤ a.pop.length) :
    ∃ b T V, newGeneration μ cutoff (a.pop.length - cutoff) a = some b ∧ GenDone μ cutoff (a.pop.length - cutoff) a b ∧ GenOK F ok Dom N Repr cutoff b T V := by
  have hE := I.evalAt P
  obtain ⟨b, hb, G⟩ := newGeneration_spec (μ := μ) (cutoff := cutoff) (lim := a.pop.length - cutoff) hc (by omega) (by omega) I.shape.allLen I.shape.allLen'
    I.shape.lenN I.shape.lenM I.shape.lenS I.shape.nodup (by
      intro x hx
      obtain ⟨_, _, _, _, d, ht, _⟩ := hE x (by omega)
      rw [ht]
      simp)
  obtain ⟨T, V, H, hr, hv, _⟩ := gen_phase L hμ I.shape hc (by omega) (by omega) hE G
  have hid : ∀ i, idAt b.sys i = idAt a.sys i := idAt_slots G.slots
  refine ⟨b, T, V, hb, G, gen_shape hμ I.shape G, by rw [G.len]; exact hcp, by rw [G.len]; exact H, by rw [G.len]; exact hr, ?_, ?_, ?_⟩
  · intro j hj; rw [G.fit]; exact hv j hj
  · intro x hx q hq
    rw [G.len] at hx
    have hm : x % cutoff < cutoff := Nat.mod_lt _ hc
    rw [(G.elite _ hm).1] at hq
    have hqo := I.shape.pop q (List.mem_of_getElem? hq)
    by_cases hxc : x < cutoff
    · rw [Nat.mod_eq_of_lt hxc] at hq
      have e1 : ptsOf b x = q := by unfold ptsOf; rw [List.getD_eq_getElem?_getD, (G.elite x hxc).1, hq]; rfl
      have e2 : mutsOf b x = [] := by unfold mutsOf; rw [List.getD_eq_getElem?_getD, (G.elite x hxc).2.1]; rfl
      rw [e1, e2]
      exact Mutates.refl _ _
    · obtain ⟨g1, g2, _⟩ := G.mutd x (by omega) hx
      rw [hq] at g1 g2
      have e1 : ptsOf b x = (μ x q).1 := by unfold ptsOf; rw [List.getD_eq_getElem?_getD, g1]; rfl
      have e2 : mutsOf b x = (μ x q).2 := by unfold mutsOf; rw [List.getD_eq_getElem?_getD, g2]; rfl
      rw [e1, e2]
      exact hμ x q hqo.1 hqo.2
  · intro x h1 h2
    rw [G.len] at h1 h2
    rw [hid, G.other]
    · exact I.dormant h2
    · intro y hy1 hy2 e
      have := idAt_inj I.shape.nodup (by rw [I.shape.lenS]; exact h2) (by rw [I.shape.lenS]; omega) e
      omega

/-- The evaluation of a step: nothing panics, and what the step leaves before sorting. -/
structure EvalOK (F : Fun Dt K) (ok : K → Prop) (Dom : NP → Prop) (N : Nat) (Repr : Dt → List NP → Prop) (cutoff : Nat) (b : Algo Dt K)
    (T : Nat → Dt) (V : Nat → ℚ) (q : Ph Dt K) (ar : List Nat) (st : List ℚ × List Ben) (c : Algo Dt K) : Prop where
  perm : ar.Perm (List.range (b.pop.length - cutoff))
  done : PhaseDone F ok (b.pop.length - cutoff) b.sys T V q
  fold : q.arr.foldlM (recvStep cutoff b.muts) (b.fit, List.replicate cutoff []) = some st
  recv : RecvInv V b.muts cutoff b.fit ar st
  benFit : BenFit Dom st.2 b.pop
  fits : ∀ x : Nat, st.1[x]? = if x < b.pop.length - cutoff then some (V x) else b.fit[x]?
  comb : combineMutations F cutoff st.2 { b with sys := q.sys, fit := st.1 } = some c
  inv : CombInv F ok Dom N Repr cutoff (b.pop.length - cutoff) st.2 { b with sys := q.sys, fit := st.1 } c b.pop.length

theorem GenOK.eval (L : Laws F ok Dom N Repr) {cutoff : Nat} {b : Algo Dt K} {T : Nat → Dt} {V : Nat → ℚ} (G : GenOK F ok Dom N Repr cutoff b T V)
    (hc : 1 ≤ cutoff) {l : List Who} {q : Ph Dt K}
    (h : Run F (b.pop.length - cutoff) (ptsOf b) (mutsOf b) (Ph.start b.sys) l q) (hf : q.Finished (b.pop.length - cutoff)) :
    ∃ ar st c, EvalOK F ok Dom N Repr cutoff b T V q ar st c := by
  have Dn := phase_done G.phase h hf
  have S := G.shape
  have hlen := G.len
  obtain ⟨ar, hp, ha⟩ := Dn.arr
  have har : ∀ i ∈ ar, i < b.pop.length - cutoff := fun i hi => List.mem_range.mp (hp.mem_iff.mp hi)
  obtain ⟨st, hst, R⟩ := recv_spec (V := V) (muts := b.muts) (cutoff := cutoff) (lim := b.pop.length - cutoff) (fit0 := b.fit) hc
    (by rw [S.lenF]; omega) (by rw [S.lenM]; omega) G.base ar har
  have hfits : ∀ x : Nat, st.1[x]? = if x < b.pop.length - cutoff then some (V x) else b.fit[x]? := by
    intro x
    rw [R.fit, ← ha]
    exact phase_fit (by rw [S.lenF]; omega) Dn x
  have hmuts : ∀ (i : Nat) ms, b.muts[i]? = some ms → mutsOf b i = ms := by
    intro i ms hm
    unfold mutsOf
    rw [List.getD_eq_getElem?_getD, hm]; rfl
  have hbf : BenFit Dom st.2 b.pop := by
    intro j bj qj hbj hqj
    have B := R.ben j bj hbj
    have hmem : ∀ m ∈ bj.map Prod.fst, qj[m.index]? = some m.old ∧ Dom m.new := by
      intro m hm
      obtain ⟨x, hx, rfl⟩ := List.mem_map.mp hm
      obtain ⟨h1, h2, _, ms, h3, h4⟩ := B.mem x hx
      have M := G.muts x.2 (har _ h1) qj (by rw [h2]; exact hqj)
      rw [hmuts _ _ h3] at M
      exact ⟨M.old _ h4, M.dom _ h4⟩
    have hnd : ((bj.map Prod.fst).map Mut.index).Nodup := by
      rw [List.map_map]
      exact B.nodup
    obtain ⟨r, h1, h2, h3, h4⟩ := apply_spec (bj.map Prod.fst) qj hnd (fun m hm => (List.getElem?_eq_some_iff.mp (hmem m hm).1).1)
    exact ⟨r, h1, h2, hnd, fun m hm => (hmem m hm).1, h3, h4, fun m hm => (hmem m hm).2⟩
  have Sc : Shape F ok Dom N { b with sys := q.sys, fit := st.1 } := by
    have := evalState_shape S Dn
    unfold evalState at this
    rw [ha, ← R.fit] at this
    exact this
  have hidq : ∀ x, idAt q.sys x = idAt b.sys x := idAt_slots Dn.slots
  obtain ⟨c, hcomb, I⟩ := combine_spec (F := F) L (c := { b with sys := q.sys, fit := st.1 }) hc hlen R.len hbf Sc (by
    intro x hx
    have hx' : x < b.pop.length - cutoff := hx
    have hev := phase_eval G.phase G.repr Dn x hx'
    have hxl : x < b.pop.length := by omega
    have hpx : b.pop[x]? = some b.pop[x] := List.getElem?_eq_getElem hxl
    have hpt : ptsOf b x = b.pop[x] := by unfold ptsOf; rw [List.getD_eq_getElem?_getD, hpx]; rfl
    refine ⟨b.pop[x], V x, hpx, ?_, ?_⟩
    · show st.1[x]? = some (V x)
      rw [hfits, if_pos hx']
    · show Evaluated F Repr q.sys (idAt q.sys x) _ _
      rw [hidq, ← hpt]
      exact hev) (by
    intro x h1 h2
    have h1' : b.pop.length - cutoff ≤ x := h1
    have h2' : x < b.pop.length := h2
    show Dormant Repr (q.sys.fns (idAt q.sys x))
    rw [hidq, Dn.other]
    · exact G.dormant x h1' h2'
    · intro i hi e
      have := idAt_inj S.nodup (by rw [S.lenS]; exact h2') (by rw [S.lenS]; omega) e
      omega)
  exact ⟨ar, st, c, hp, Dn, by rw [ha]; exact hst, R, hbf, hfits, hcomb, I⟩

variable {cutoff : Nat} {b : Algo Dt K} {T : Nat → Dt} {V : Nat → ℚ} {q : Ph Dt K} {ar : List Nat} {st : List ℚ × List Ben} {c : Algo Dt K}

/-- Members after the evaluation of a step. -/
theorem EvalOK.members (G : GenOK F ok Dom N Repr cutoff b T V) (hc : 1 ≤ cutoff) (E : EvalOK F ok Dom N Repr cutoff b T V q ar st c) :
    Members (MMember F Repr) c ∧ ∀ x < b.pop.length - cutoff, c.fit[x]? = some (V x) := by
  have I := E.inv
  have hidq : ∀ x, idAt q.sys x = idAt b.sys x := idAt_slots E.done.slots
  have hidc : ∀ x, idAt c.sys x = idAt b.sys x := fun x => (idAt_slots I.slots x).trans (hidq x)
  have hlen := G.len
  have hV : ∀ x < b.pop.length - cutoff, c.fit[x]? = some (V x) := by
    intro x hx
    obtain ⟨_, h2, _⟩ := I.low x hx
    rw [h2]
    show st.1[x]? = _
    rw [E.fits, if_pos hx]
  refine ⟨?_, hV⟩
  intro x p v id hp hv hid
  have hid' : id = idAt b.sys x := by rw [← hidc]; exact (idAt_eq hid).symm
  have hxl : x < b.pop.length := by
    have h := (List.getElem?_eq_some_iff.mp hp).1
    rw [I.len] at h
    exact h
  by_cases hx : x < b.pop.length - cutoff
  · left
    obtain ⟨h1, h2, h3⟩ := I.low x hx
    rw [hV x hx] at hv
    cases hv
    have hev := phase_eval G.phase G.repr E.done x hx
    have h1' : c.pop[x]? = b.pop[x]? := h1
    rw [h1'] at hp
    have hpt : ptsOf b x = p := by unfold ptsOf; rw [List.getD_eq_getElem?_getD, hp]; rfl
    rw [hpt] at hev
    obtain ⟨d, e1, e2, e3, e4, e5⟩ := hev
    have h3' : c.sys.fns (idAt b.sys x) = q.sys.fns (idAt b.sys x) := by
      have h4 : c.sys.fns (idAt q.sys x) = q.sys.fns (idAt q.sys x) := h3
      rwa [hidq] at h4
    rw [hid']
    exact ⟨d, by rw [h3']; exact e1, by rw [h3']; exact e2, by rw [h3', e3, I.cur], e4, e5⟩
  · have hjl : x % cutoff < cutoff := Nat.mod_lt _ hc
    have hb : st.2[x % cutoff]? = some (st.2[x % cutoff]'(by rw [E.recv.len]; exact hjl)) := List.getElem?_eq_getElem _
    generalize st.2[x % cutoff]'(by rw [E.recv.len]; exact hjl) = bj at hb
    have hq : b.pop[x % cutoff]? = some (b.pop[x % cutoff]'(by omega)) := List.getElem?_eq_getElem _
    by_cases hbj : bj = []
    · subst hbj
      right
      obtain ⟨h1, _, h3⟩ := I.out x (by omega) hxl hb
      rw [h1] at hv
      cases hv
      refine ⟨rfl, ?_⟩
      have h4 : Dormant Repr (c.sys.fns (idAt q.sys x)) := h3
      rwa [hidq, ← hid'] at h4
    · left
      obtain ⟨p', v', h1, h2, _, h4⟩ := I.comb x (by omega) hxl bj _ hb hq hbj
      rw [h1] at hp
      cases hp
      rw [h2] at hv
      cases hv
      have h5 : Evaluated F Repr c.sys (idAt q.sys x) p v := h4
      rw [hidq, ← hid'] at h5
      exact h5

/-- Sorting after an evaluation gives the invariant. -/
theorem mod_update {srt : Sorter} (hs : SortOK srt) (S : Shape F ok Dom N c) (hM : Members (MMember F Repr) c) :
    ∃ d, updateFitnesses srt c = some d ∧ MInv F ok Dom N Repr d ∧ Updated (MMember F Repr) c d := by
  obtain ⟨d, hd, U, Sd⟩ := update_spec hs (M := MMember F Repr) (fun s l id p v => mmember_slots s l id p v) S hM
  exact ⟨d, hd, ⟨Sd, U.members, U.sorted, U.best, U.bestFit⟩, U⟩

/-- One step keeps the invariant. -/
theorem MInv.step (L : Laws F ok Dom N Repr) {srt : Sorter} (hs : SortOK srt) {μ : Mutator} (hμ : MutOK Dom N μ) {l : List Who}
    {a a' : Algo Dt K} (I : MInv F ok Dom N Repr a) (P : FrontPos cutoff a) (hc : 1 ≤ cutoff) (hcp : 2 * cutoff ≤ a.pop.length)
    (h : ModStep F srt cutoff μ l a a') :
    MInv F ok Dom N Repr a' ∧ a'.pop.length = a.pop.length ∧ a'.gen = a.gen + 1 ∧ a.bestFit ≤ a'.bestFit ∧ a'.sys.k = a.sys.k ∧
      (FreshPos F Repr (a.pop.length - cutoff) (fun x p => cutoff ≤ x ∧ ∃ q, a.pop[x % cutoff]? = some q ∧ (μ x q).1 = p) → FrontPos cutoff a') := by
  obtain ⟨b, T, V, hb, Gd, G⟩ := I.gen L hμ P hc hcp
  obtain ⟨b', c, d, h1, ⟨q, st', h2, h3, h4, h5⟩, h6, rfl⟩ := h
  rw [hb] at h1
  cases h1
  obtain ⟨ar, st, c', E⟩ := G.eval L hc h2 h3
  rw [E.fold] at h4
  cases h4
  rw [E.comb] at h5
  cases h5
  obtain ⟨hM, hV⟩ := E.members G hc
  have hlc : c.pop.length = b.pop.length := E.inv.len
  obtain ⟨d', hd', Id, U⟩ := mod_update hs E.inv.shape hM
  rw [h6] at hd'
  cases hd'
  have hU := U.eq
  have hlen := G.len
  refine ⟨⟨?_, Id.members, Id.sorted, Id.best, Id.bestFit⟩, ?_, ?_, ?_, ?_, fun Ps => ?_⟩
  · have S := Id.shape
    exact ⟨S.pos, S.lenN, S.lenF, S.lenM, S.lenS, S.nodup, S.k, S.bufs, S.pop, S.newPop, S.best⟩
  · show d.pop.length = a.pop.length
    rw [U.pop.length_eq, hlc, Gd.len]
  · have e1 : d.gen = c.gen := by have := congrArg Algo.gen hU; exact this
    have e2 : c.gen = b.gen := E.inv.gen
    show d.gen + 1 = a.gen + 1
    rw [e1, e2, Gd.gen]
  · show a.bestFit ≤ d.bestFit
    have h0 : b.fit[0]? = some (V 0) := G.base 0 (by omega)
    rw [Gd.fit, I.bestFit] at h0
    rw [Option.some.inj h0]
    apply sorted_head Id.sorted Id.bestFit
    apply U.fit.mem_iff.mpr
    exact List.mem_of_getElem? (hV 0 (by omega))
  · have e1 : d.sys.k = c.sys.k := by have := congrArg (fun z : Algo Dt K => z.sys.k) hU; exact this
    have e2 : c.sys.k = q.sys.k := E.inv.k
    show d.sys.k = a.sys.k
    rw [e1, e2, E.done.k, Gd.k]
  · show ∀ x < d.pop.length - cutoff, ∃ v, d.fit[x]? = some v ∧ 0 < v
    rw [U.pop.length_eq, hlc]
    refine front_positive U.sorted U.fit (by rw [E.inv.shape.lenF, hlc]; omega) (fun x hx => ⟨_, hV x hx, ?_⟩)
    by_cases hxc : x < cutoff
    · obtain ⟨v, hv, h0⟩ := P x (by rw [← Gd.len]; exact hx)
      have := G.base x hxc
      rw [Gd.fit, hv] at this
      rw [← Option.some.inj this]
      exact h0
    · rw [Gd.len] at hx
      have hm : x % cutoff < cutoff := Nat.mod_lt _ hc
      have hq : a.pop[x % cutoff]? = some (a.pop[x % cutoff]'(by omega)) := List.getElem?_eq_getElem _
      obtain ⟨g1, _⟩ := Gd.mutd x (by omega) hx
      rw [hq] at g1
      have e1 : ptsOf b x = (μ x (a.pop[x % cutoff]'(by omega))).1 := by unfold ptsOf; rw [List.getD_eq_getElem?_getD, g1]; rfl
      rw [← Gd.len] at hx
      exact Ps x _ (by rw [← Gd.len]; exact hx) ⟨by omega, _, hq, rfl⟩ _ _ (by rw [← e1]; exact G.repr x hx) (G.phase.val x hx)

/-- The constructor establishes the invariant. -/
theorem MInv.new_exists (L : Laws F ok Dom N Repr) {srt : Sorter} (hs : SortOK srt) {init : List (List NP)} {k : Nat} (hk : 1 ≤ k)
    (hc : 1 ≤ cutoff) (hcp : cutoff < init.length) (hi : ∀ p ∈ init, p.length = N ∧ ∀ q ∈ p, Dom q) :
    ∃ b : Algo Dt K, ∃ T V, simpleInit init k = some b ∧ b.pop = init ∧ Shape F ok Dom N b ∧ PhaseOK F ok (b.pop.length - cutoff) (ptsOf b) (mutsOf b) b.sys T V ∧
      ∀ l q, Run F (b.pop.length - cutoff) (ptsOf b) (mutsOf b) (Ph.start b.sys) l q → q.Finished (b.pop.length - cutoff) →
        ∃ st d, q.arr.foldlM (recvStep cutoff b.muts) (b.fit, List.replicate cutoff []) = some st ∧
          updateFitnesses srt { b with sys := q.sys, fit := st.1 } = some d ∧ MInv F ok Dom N Repr d ∧ d.pop.length = init.length ∧ d.gen = 0 ∧
          (FreshPos F Repr (init.length - cutoff) (fun x p => init[x]? = some p) → FrontPos cutoff d) := by
  obtain ⟨b, T, V, hb, hp, hg, hsys, hfit, hmut, S, H, hr⟩ := init_phase (F := F) L (lim := init.length - cutoff) hk (by omega) (by omega) hi
  rw [← hp] at H hr
  refine ⟨b, T, V, hb, hp, S, H, fun l q h hf => ?_⟩
  have Dn := phase_done H h hf
  obtain ⟨ar, hpm, ha⟩ := Dn.arr
  have har : ∀ i ∈ ar, i < b.pop.length - cutoff := fun i hi => List.mem_range.mp (hpm.mem_iff.mp hi)
  have hpl : b.pop.length = init.length := congrArg _ hp
  have hst := recv_empty (V := V) (muts := b.muts) (cutoff := cutoff) (fit0 := b.fit) hc (by rw [S.lenF]; omega) (by
    intro i hi
    rw [S.lenF, ← S.lenM] at hi
    have e : b.muts[i]? = some b.muts[i] := List.getElem?_eq_getElem hi
    have := hmut i
    unfold mutsOf at this
    rw [List.getD_eq_getElem?_getD, e] at this
    rw [e, show b.muts[i] = [] from this]) ar (fun i hi => by have := har i hi; rw [S.lenF]; omega)
  rw [← ha] at hst
  have Se := evalState_shape S Dn
  have hfits := fun x => phase_fit (fit := b.fit) (by rw [S.lenF]; omega) Dn x
  have hM : Members (MMember F Repr) (evalState b q) := by
    intro x p v id hpx hv hid
    have hpx' : b.pop[x]? = some p := hpx
    have hv' : (collect b.fit q.arr)[x]? = some v := hv
    have hid' : q.sys.slots[x]? = some id := hid
    rw [Dn.slots] at hid'
    have hxl := (List.getElem?_eq_some_iff.mp hpx').1
    rw [hfits] at hv'
    by_cases hx : x < b.pop.length - cutoff
    · rw [if_pos hx] at hv'
      cases hv'
      left
      have hev := phase_eval H hr Dn x hx
      have hpt : ptsOf b x = p := by unfold ptsOf; rw [List.getD_eq_getElem?_getD, hpx']; rfl
      rw [hpt, idAt_eq hid'] at hev
      exact hev
    · rw [if_neg hx, hfit x (by omega)] at hv'
      cases hv'
      right
      refine ⟨rfl, ?_⟩
      have : q.sys.fns id = b.sys.fns id := by
        apply Dn.other
        intro i hi e
        rw [← idAt_eq hid'] at e
        have := idAt_inj S.nodup (by rw [S.lenS]; omega) (by rw [S.lenS]; omega) e
        omega
      show Dormant Repr (q.sys.fns id)
      rw [this, hsys]
      exact ⟨rfl, by simp [newParallel], Or.inl rfl⟩
  obtain ⟨d, hd, Id, U⟩ := mod_update hs (c := evalState b q) Se hM
  refine ⟨_, d, hst, hd, Id, ?_, ?_, fun Ps => ?_⟩
  · rw [U.pop.length_eq]; exact hpl
  · have e1 : d.gen = b.gen := by have := congrArg Algo.gen U.eq; exact this
    rw [e1, hg]
  · unfold FrontPos
    rw [U.pop.length_eq]
    show ∀ x < b.pop.length - cutoff, ∃ v, d.fit[x]? = some v ∧ 0 < v
    refine front_positive U.sorted U.fit (by rw [Se.lenF]; exact Nat.sub_le _ _) (fun x hx => ⟨V x, ?_, ?_⟩)
    · show (collect b.fit q.arr)[x]? = _
      rw [hfits, if_pos hx]
    · have hxl : x < b.pop.length := by omega
      have hpx : b.pop[x]? = some b.pop[x] := List.getElem?_eq_getElem hxl
      have hpt : ptsOf b x = b.pop[x] := by unfold ptsOf; rw [List.getD_eq_getElem?_getD, hpx]; rfl
      exact Ps x _ (by rw [← hpl]; exact hx) (by rw [← hp]; exact hpx) _ _ (by rw [← hpt]; exact hr x hx) (H.val x hx)

theorem MInv.new (L : Laws F ok Dom N Repr) {srt : Sorter} (hs : SortOK srt) {init : List (List NP)} {k : Nat} (hk : 1 ≤ k)
    (hc : 1 ≤ cutoff) (hcp : cutoff < init.length) (hi : ∀ p ∈ init, p.length = N ∧ ∀ q ∈ p, Dom q) {l : List Who} {a : Algo Dt K}
    (h : NewMod F srt cutoff init k l a) :
    MInv F ok Dom N Repr a ∧ a.pop.length = init.length ∧ a.gen = 0 ∧
      (FreshPos F Repr (init.length - cutoff) (fun x p => init[x]? = some p) → FrontPos cutoff a) := by
  obtain ⟨b, T, V, hb, hp, S, H, hall⟩ := MInv.new_exists L hs hk hc hcp hi
  obtain ⟨b', q, st, h1, h2, h3, h4, h5⟩ := h
  rw [hb] at h1
  cases h1
  obtain ⟨st', d, e1, e2, Id, e3, e4⟩ := hall l q h2 h3
  rw [e1] at h4
  cases h4
  rw [e2] at h5
  cases h5
  exact ⟨Id, e3, e4⟩

end Verif.Alg

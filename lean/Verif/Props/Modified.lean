import Verif.Alg.ModExec
import Verif.Alg.Play
import Verif.Props.Simple

/-!
# Properties of the modified genetic algorithm with the parallel evaluator (C42-C48, C64)

An execution is `NewModifiedGenetic` followed by any number of `Step`s, each with any mutator that records what it changes and under any
schedule of the worker goroutines.  The theorems hold for every fitness function that obeys `Laws`, with `1 ≤ cutoff` and `2 * cutoff ≤ size`, as long as
the fitnesses of all members but the last `cutoff` are positive before each step (`FrontPos`): the algorithm marks the members it leaves out
by fitness 0.  A fitness function that is always positive makes this condition true (`MSetting.posExec`).  At the end of the file the condition is shown to be
necessary: with a negative fitness function `Best` is a member that was never evaluated, and there is a data race.
-/

namespace Verif.Props

open Verif.Fit Verif.Alg

variable {Dt K : Type} {F : Fun Dt K} {ok : K → Prop} {Dom : NP → Prop} {Repr : Dt → List NP → Prop}
variable {N : Nat} {srt : Sorter} {cutoff : Nat} {init : List (List NP)} {k : Nat}

/-! ### C42 -/

/-- **C42**, modified algorithm: a step never lowers the best fitness. -/
theorem c42_modified_partial (S : MSetting F ok Dom N Repr srt cutoff init k) {n : Nat} {a a' : Algo Dt K} {μ : Mutator} {l : List Who}
    (h : PosExec F srt cutoff Dom N init k n a) (hF : FrontPos cutoff a) (hμ : MutOK Dom N μ) (hs : ModStep F srt cutoff μ l a a') :
    a.bestFit ≤ a'.bestFit := by
  have := S.cutoff2
  obtain ⟨J, h1, _⟩ := S.exec h
  exact (J.step S.laws S.sort hμ hF S.cutoff1 (by omega) hs).2.2.2.1

/-! ### C43 -/

/-- **C43**, modified algorithm: the best points are those of member 0 and the best fitness is its fitness, no fitness is higher, and the best fitness is
that of a triangulation of the best points. -/
theorem c43_modified_partial (S : MSetting F ok Dom N Repr srt cutoff init k) {n : Nat} {a : Algo Dt K}
    (h : PosExec F srt cutoff Dom N init k n a) (hF : FrontPos cutoff a) :
    a.pop[0]? = some a.best ∧ a.fit[0]? = some a.bestFit ∧ a.fit.length = a.pop.length ∧ (∀ v ∈ a.fit, v ≤ a.bestFit) ∧
      ∃ d, Repr d a.best ∧ plain F d = some a.bestFit := by
  have h2 := S.cutoff2
  have h3 := S.cutoff1
  obtain ⟨J, h1, _⟩ := S.exec h
  refine ⟨J.best, J.bestFit, J.shape.lenF, fun v hv => sorted_head J.sorted J.bestFit v hv, ?_⟩
  obtain ⟨p, v, e1, e2, d, _, _, _, e3, e4⟩ := J.evalAt hF 0 (by omega)
  rw [J.best] at e1
  rw [J.bestFit] at e2
  cases e1
  cases e2
  exact ⟨d, e3, e4⟩

/-! ### C44 -/

/-- **C44**, modified algorithm: the generation counts the steps; the numbers of members and of points are unchanged, and so is the domain
of the points. -/
theorem c44_modified_partial (S : MSetting F ok Dom N Repr srt cutoff init k) {n : Nat} {a : Algo Dt K}
    (h : PosExec F srt cutoff Dom N init k n a) :
    a.gen = n ∧ a.pop.length = init.length ∧ ∀ p ∈ a.pop, p.length = N ∧ ∀ q ∈ p, Dom q := by
  obtain ⟨J, h1, h2⟩ := S.exec h
  exact ⟨h2, h1, J.shape.pop⟩

/-! ### C46

`b` is the state of a step after `newGeneration`, `c` the one after `combineMutations`. -/

/-- Member `x` is made from base `j`, and its fitness is higher than that of the base. -/
def Beats (cutoff : Nat) (c : Algo Dt K) (j x : Nat) : Prop :=
  x < c.pop.length - cutoff ∧ x % cutoff = j ∧ ∃ v v0, c.fit[x]? = some v ∧ c.fit[j]? = some v0 ∧ v0 < v

/-- Member `x` was made by a mutation of its point `t` into `p`. -/
def Moved (b : Algo Dt K) (x t : Nat) (p : NP) : Prop := ∃ ms m, b.muts[x]? = some ms ∧ m ∈ ms ∧ m.index = t ∧ m.new = p

/-- Member `x` beats base `j`, moved point `t` to `p`, and no member that beats the base and moved point `t` is fitter. -/
def Fittest (cutoff : Nat) (b c : Algo Dt K) (j t x : Nat) (p : NP) : Prop :=
  Beats cutoff c j x ∧ Moved b x t p ∧ ∀ x' p' v v', Beats cutoff c j x' → Moved b x' t p' → c.fit[x]? = some v → c.fit[x']? = some v' → v' ≤ v

section
variable {T : Nat → Dt} {V : Nat → ℚ} {b c : Algo Dt K} {q : Ph Dt K} {ar : List Nat} {st : List ℚ × List Ben}

theorem cand_iff (G : GenOK F ok Dom N Repr cutoff b T V) (hc : 1 ≤ cutoff) (E : EvalOK F ok Dom N Repr cutoff b T V q ar st c) {j x t : Nat} (hj : j < cutoff) {p : NP} :
    (Beats cutoff c j x ∧ Moved b x t p) ↔ ∃ m, Cand V b.muts cutoff j ar x m ∧ m.index = t ∧ m.new = p := by
  have hl : c.pop.length = b.pop.length := E.inv.len
  have hV := (E.members G hc).2
  have hG := G.len
  unfold Beats Moved Cand
  rw [hl]
  constructor
  · rintro ⟨⟨h1, h2, v, v0, h3, h4, h5⟩, ms, m, h6, h7, h8, h9⟩
    rw [hV x h1] at h3
    rw [hV j (by omega)] at h4
    cases h3
    cases h4
    exact ⟨m, ⟨E.perm.mem_iff.mpr (List.mem_range.mpr h1), h2, h5, ms, h6, h7⟩, h8, h9⟩
  · rintro ⟨m, ⟨h1, h2, h3, ms, h4, h5⟩, h6, h7⟩
    have hx := List.mem_range.mp (E.perm.mem_iff.mp h1)
    exact ⟨⟨hx, h2, _, _, hV x hx, hV j (by omega), h3⟩, ms, m, h4, h5, h6, h7⟩

/-- What is combined for a base. -/
theorem comb_spec (G : GenOK F ok Dom N Repr cutoff b T V) (hc : 1 ≤ cutoff) (E : EvalOK F ok Dom N Repr cutoff b T V q ar st c) {i : Nat}
    (h1 : c.pop.length - cutoff ≤ i) (h2 : i < c.pop.length) :
    ((∃ x t p, Beats cutoff c (i % cutoff) x ∧ Moved b x t p) →
      ∃ p q v d, c.pop[i]? = some p ∧ c.pop[i % cutoff]? = some q ∧ p.length = q.length ∧ c.fit[i]? = some v ∧ Repr d p ∧ plain F d = some v ∧
        ∀ t < q.length, (∃ x r px, Fittest cutoff b c (i % cutoff) t x r ∧ p[t]? = some r ∧ c.pop[x]? = some px ∧ px[t]? = some r) ∨
          ((∀ x r, Beats cutoff c (i % cutoff) x → ¬ Moved b x t r) ∧ p[t]? = q[t]?)) ∧
    ((¬ ∃ x t p, Beats cutoff c (i % cutoff) x ∧ Moved b x t p) → c.fit[i]? = some 0 ∧ c.pop[i]? = b.pop[i]?) := by
  have hl : c.pop.length = b.pop.length := E.inv.len
  rw [hl] at h1 h2
  have hG := G.len
  have hjl : i % cutoff < cutoff := Nat.mod_lt _ hc
  have hb : st.2[i % cutoff]? = some (st.2[i % cutoff]'(by rw [E.recv.len]; exact hjl)) := List.getElem?_eq_getElem _
  generalize st.2[i % cutoff]'(by rw [E.recv.len]; exact hjl) = bj at hb
  have B := E.recv.ben _ _ hb
  have hq : b.pop[i % cutoff]? = some (b.pop[i % cutoff]'(by omega)) := List.getElem?_eq_getElem _
  generalize b.pop[i % cutoff]'(by omega) = qj at hq
  obtain ⟨r, hr, M⟩ := E.benFit _ _ _ hb hq
  have hV := (E.members G hc).2
  have hlow : ∀ x < b.pop.length - cutoff, c.pop[x]? = b.pop[x]? := fun x hx => (E.inv.low x hx).1
  constructor
  · rintro ⟨x, t, p, hx1, hx2⟩
    obtain ⟨m, hm, _⟩ := (cand_iff G hc E hjl).mp ⟨hx1, hx2⟩
    have hne : bj ≠ [] := by
      obtain ⟨y, hy, _⟩ := B.max x m hm
      intro e
      rw [e] at hy
      cases hy
    obtain ⟨p, v, e1, e2, e3, d, _, _, _, e4, e5⟩ := E.inv.comb i h1 h2 bj qj hb hq hne
    have e3' : some r = some p := hr.symm.trans e3
    cases e3'
    refine ⟨r, qj, v, d, e1, by rw [hlow _ (by omega)]; exact hq, M.len, e2, e4, e5, fun t ht => ?_⟩
    by_cases hex : ∃ y ∈ bj, y.1.index = t
    · obtain ⟨y, hy, rfl⟩ := hex
      have hcy := B.mem y hy
      have hyl := List.mem_range.mp (E.perm.mem_iff.mp hcy.1)
      have hrt := M.new y.1 (List.mem_map.mpr ⟨y, hy, rfl⟩)
      obtain ⟨f1, f2⟩ := (cand_iff G hc E hjl).mpr ⟨y.1, hcy, rfl, rfl⟩
      have hpy : b.pop[y.2]? = some (b.pop[y.2]'(by omega)) := List.getElem?_eq_getElem _
      refine Or.inl ⟨y.2, y.1.new, b.pop[y.2]'(by omega), ⟨f1, f2, ?_⟩, hrt, by rw [hlow _ hyl]; exact hpy, ?_⟩
      · intro x' p' v1 v2 g1 g2 g3 g4
        obtain ⟨m', hm', hi', _⟩ := (cand_iff G hc E hjl).mp ⟨g1, g2⟩
        obtain ⟨y', hy', hi2, hle⟩ := B.max x' m' hm'
        have : y' = y := by
          have hnd := B.nodup
          obtain ⟨s1, hs1⟩ := List.getElem_of_mem hy'
          obtain ⟨s2, hs2⟩ := List.getElem_of_mem hy
          obtain ⟨hs1l, hs1⟩ := hs1
          obtain ⟨hs2l, hs2⟩ := hs2
          have : (bj.map fun x => x.1.index)[s1]'(by simpa using hs1l) = (bj.map fun x => x.1.index)[s2]'(by simpa using hs2l) := by
            simp only [List.getElem_map, hs1, hs2]
            rw [hi2, hi']
          have := (List.Nodup.getElem_inj_iff hnd).mp this
          subst this
          rw [← hs1, ← hs2]
        subst this
        have hx'l := List.mem_range.mp (E.perm.mem_iff.mp hm'.1)
        rw [hV _ hyl] at g3
        rw [hV _ hx'l] at g4
        cases g3
        cases g4
        exact hle
      · have Mx := G.muts y.2 hyl qj (by rw [hcy.2.1]; exact hq)
        obtain ⟨ms, hms, hmem⟩ := hcy.2.2.2
        have em : mutsOf b y.2 = ms := by unfold mutsOf; rw [List.getD_eq_getElem?_getD, hms]; rfl
        have ep : ptsOf b y.2 = b.pop[y.2]'(by omega) := by unfold ptsOf; rw [List.getD_eq_getElem?_getD, hpy]; rfl
        have := Mx.new y.1 (by rw [em]; exact hmem)
        rwa [ep] at this
    · right
      refine ⟨fun x' r' g1 g2 => ?_, ?_⟩
      · obtain ⟨m', hm', hi', _⟩ := (cand_iff G hc E hjl).mp ⟨g1, g2⟩
        obtain ⟨y', hy', hi2, _⟩ := B.max x' m' hm'
        exact hex ⟨y', hy', by rw [hi2, hi']⟩
      · refine M.other t ?_
        intro m hm e
        obtain ⟨y, hy, rfl⟩ := List.mem_map.mp hm
        exact hex ⟨y, hy, e⟩
  · intro hno
    have he : bj = [] := by
      cases hbj : bj with
      | nil => rfl
      | cons y ys =>
        have hy : y ∈ bj := by rw [hbj]; simp
        exact absurd ⟨y.2, _, _, (cand_iff G hc E hjl).mpr ⟨y.1, B.mem y hy, rfl, rfl⟩⟩ hno
    subst he
    obtain ⟨f1, f2, _⟩ := E.inv.out i h1 h2 hb
    exact ⟨f1, f2⟩

end

/-- **C46**: consider a step, with `b` its state after `newGeneration` and `c` the one after `combineMutations`, and one of the last `cutoff`
members, `i`, whose base is `i % cutoff`.  If some member beats the base by mutations, member `i` has at each point either the new point of a member that is
fittest among those that beat the base and moved this point, or, if there are none, the point of the base; and its fitness is that of a
triangulation of its points.  If no member beats the base by mutations, member `i` is left out with fitness 0. -/
theorem c46_modified_partial (S : MSetting F ok Dom N Repr srt cutoff init k) {n : Nat} {a b c : Algo Dt K} {μ : Mutator} {l : List Who}
    (h : PosExec F srt cutoff Dom N init k n a) (hF : FrontPos cutoff a) (hμ : MutOK Dom N μ)
    (hb : newGeneration μ cutoff (a.pop.length - cutoff) a = some b) (hc : ModEval F cutoff l b c) {i : Nat}
    (h1 : c.pop.length - cutoff ≤ i) (h2 : i < c.pop.length) :
    ((∃ x t p, Beats cutoff c (i % cutoff) x ∧ Moved b x t p) →
      ∃ p q v d, c.pop[i]? = some p ∧ c.pop[i % cutoff]? = some q ∧ p.length = q.length ∧ c.fit[i]? = some v ∧ Repr d p ∧ plain F d = some v ∧
        ∀ t < q.length, (∃ x r px, Fittest cutoff b c (i % cutoff) t x r ∧ p[t]? = some r ∧ c.pop[x]? = some px ∧ px[t]? = some r) ∨
          ((∀ x r, Beats cutoff c (i % cutoff) x → ¬ Moved b x t r) ∧ p[t]? = q[t]?)) ∧
    ((¬ ∃ x t p, Beats cutoff c (i % cutoff) x ∧ Moved b x t p) → c.fit[i]? = some 0) := by
  obtain ⟨T, V, G, hE⟩ := S.evalOK h hF hμ hb
  obtain ⟨q, ar, st, E⟩ := hE l c hc
  have := comb_spec G S.cutoff1 E h1 h2
  exact ⟨this.1, fun hno => (this.2 hno).1⟩

/-! ### C45 -/

/-- **C45**, modified algorithm: two schedules of the same step give the same points and fitnesses for the evaluated members; for each base
and point, the members whose mutations are combined have the same fitness; and if members of the same base with the same fitness do not
exist, the points of all members are the same. -/
theorem c45_modified_partial (S : MSetting F ok Dom N Repr srt cutoff init k) {n : Nat} {a b c c' : Algo Dt K} {μ : Mutator} {l l' : List Who}
    (h : PosExec F srt cutoff Dom N init k n a) (hF : FrontPos cutoff a) (hμ : MutOK Dom N μ)
    (hb : newGeneration μ cutoff (a.pop.length - cutoff) a = some b) (hc : ModEval F cutoff l b c) (hc' : ModEval F cutoff l' b c') :
    c.pop.length = c'.pop.length ∧
    (∀ x : Nat, x < c.pop.length - cutoff → c.pop[x]? = c'.pop[x]? ∧ c.fit[x]? = c'.fit[x]?) ∧
    (∀ j t x x' r r', j < cutoff → Fittest cutoff b c j t x r → Fittest cutoff b c' j t x' r' → c.fit[x]? = c.fit[x']?) ∧
    (∀ i : Nat, c.pop.length - cutoff ≤ i → i < c.pop.length → (c.fit[i]? = some 0 ∧ c'.fit[i]? = some 0 ∧ c.pop[i]? = c'.pop[i]?) ∨
      ∃ q p p', c.pop[i % cutoff]? = some q ∧ c.pop[i]? = some p ∧ c'.pop[i]? = some p' ∧ p.length = q.length ∧ p'.length = q.length ∧
        ∀ t < q.length, (p[t]? = q[t]? ∧ p'[t]? = q[t]?) ∨
          ∃ x x' r r', Fittest cutoff b c (i % cutoff) t x r ∧ Fittest cutoff b c' (i % cutoff) t x' r' ∧ p[t]? = some r ∧ p'[t]? = some r') ∧
    ((∀ x y v, x < c.pop.length - cutoff → y < c.pop.length - cutoff → x % cutoff = y % cutoff → c.fit[x]? = some v → c.fit[y]? = some v → x = y) →
      c.pop = c'.pop) := by
  have hc1 := S.cutoff1
  obtain ⟨T, V, G, hE⟩ := S.evalOK h hF hμ hb
  obtain ⟨q, ar, st, E⟩ := hE l c hc
  obtain ⟨q', ar', st', E'⟩ := hE l' c' hc'
  have hl : c.pop.length = b.pop.length := E.inv.len
  have hl' : c'.pop.length = b.pop.length := E'.inv.len
  have hV := (E.members G hc1).2
  have hV' := (E'.members G hc1).2
  have hG := G.len
  have hlow : ∀ x < b.pop.length - cutoff, c.pop[x]? = b.pop[x]? := fun x hx => (E.inv.low x hx).1
  have hlow' : ∀ x < b.pop.length - cutoff, c'.pop[x]? = b.pop[x]? := fun x hx => (E'.inv.low x hx).1
  have hbeat : ∀ j x, j < cutoff → (Beats cutoff c j x ↔ Beats cutoff c' j x) := by
    intro j x hj
    unfold Beats
    rw [hl, hl']
    constructor
    · rintro ⟨h1, h2, h3⟩
      rw [hV x h1, hV j (by omega)] at h3
      rw [hV' x h1, hV' j (by omega)]
      exact ⟨h1, h2, h3⟩
    · rintro ⟨h1, h2, h3⟩
      rw [hV' x h1, hV' j (by omega)] at h3
      rw [hV x h1, hV j (by omega)]
      exact ⟨h1, h2, h3⟩
  have hfit : ∀ j t x x' r r', j < cutoff → Fittest cutoff b c j t x r → Fittest cutoff b c' j t x' r' → c.fit[x]? = c.fit[x']? := by
    rintro j t x x' r r' hj ⟨f1, f2, f3⟩ ⟨g1, g2, g3⟩
    have g1' := (hbeat j x' hj).mpr g1
    have hx : x < b.pop.length - cutoff := by rw [← hl]; exact f1.1
    have hx' : x' < b.pop.length - cutoff := by rw [← hl]; exact g1'.1
    rw [hV x hx, hV x' hx']
    congr 1
    exact le_antisymm (g3 x r _ _ ((hbeat j x hj).mp f1) f2 (hV' x' hx') (hV' x hx)) (f3 x' r' _ _ g1' g2 (hV x hx) (hV x' hx'))
  have hcomb : ∀ i : Nat, c.pop.length - cutoff ≤ i → i < c.pop.length → (c.fit[i]? = some 0 ∧ c'.fit[i]? = some 0 ∧ c.pop[i]? = c'.pop[i]?) ∨
      ∃ q p p', c.pop[i % cutoff]? = some q ∧ c.pop[i]? = some p ∧ c'.pop[i]? = some p' ∧ p.length = q.length ∧ p'.length = q.length ∧
        ∀ t < q.length, (p[t]? = q[t]? ∧ p'[t]? = q[t]?) ∨
          ∃ x x' r r', Fittest cutoff b c (i % cutoff) t x r ∧ Fittest cutoff b c' (i % cutoff) t x' r' ∧ p[t]? = some r ∧ p'[t]? = some r' := by
    intro i h1 h2
    have hj : i % cutoff < cutoff := Nat.mod_lt _ hc1
    have C := comb_spec G hc1 E h1 h2
    have C' := comb_spec G hc1 E' (i := i) (by rw [hl', ← hl]; exact h1) (by rw [hl', ← hl]; exact h2)
    by_cases hex : ∃ x t p, Beats cutoff c (i % cutoff) x ∧ Moved b x t p
    · right
      obtain ⟨p, q, v, d, e1, e2, e3, _, _, _, e4⟩ := C.1 hex
      obtain ⟨x, t, r, g1, g2⟩ := hex
      obtain ⟨p', q', v', d', e1', e2', e3', _, _, _, e4'⟩ := C'.1 ⟨x, t, r, (hbeat _ _ hj).mp g1, g2⟩
      have : some q' = some q := by rw [← e2', ← e2, hlow _ (by omega), hlow' _ (by omega)]
      cases this
      refine ⟨q, p, p', e2, e1, e1', e3, e3', fun t ht => ?_⟩
      rcases e4 t ht with ⟨x1, r1, px, f1, f2, _⟩ | ⟨f1, f2⟩
      · rcases e4' t ht with ⟨x2, r2, px2, g1, g2, _⟩ | ⟨g1, g2⟩
        · exact Or.inr ⟨x1, x2, r1, r2, f1, g1, f2, g2⟩
        · exact absurd f1.2.1 (g1 x1 r1 ((hbeat _ _ hj).mp f1.1))
      · rcases e4' t ht with ⟨x2, r2, px2, g1, g2, _⟩ | ⟨g1, g2⟩
        · exact absurd g1.2.1 (f1 x2 r2 ((hbeat _ _ hj).mpr g1.1))
        · exact Or.inl ⟨f2, g2⟩
    · left
      have hex' : ¬ ∃ x t p, Beats cutoff c' (i % cutoff) x ∧ Moved b x t p := by
        rintro ⟨x, t, r, g1, g2⟩
        exact hex ⟨x, t, r, (hbeat _ _ hj).mpr g1, g2⟩
      obtain ⟨f1, f2⟩ := C.2 hex
      obtain ⟨f1', f2'⟩ := C'.2 hex'
      exact ⟨f1, f1', by rw [f2, f2']⟩
  refine ⟨by rw [hl, hl'], ?_, hfit, hcomb, ?_⟩
  · intro x hx
    rw [hl] at hx
    exact ⟨by rw [hlow x hx, hlow' x hx], by rw [hV x hx, hV' x hx]⟩
  · intro hd
    apply List.ext_getElem?
    intro i
    by_cases h1 : i < c.pop.length - cutoff
    · rw [hl] at h1
      rw [hlow i h1, hlow' i h1]
    · by_cases h2 : i < c.pop.length
      · rcases hcomb i (by omega) h2 with ⟨_, _, e⟩ | ⟨q, p, p', e1, e2, e3, e4, e5, e6⟩
        · exact e
        · rw [e2, e3]
          congr 1
          apply List.ext_getElem?
          intro t
          by_cases ht : t < q.length
          · rcases e6 t ht with ⟨f1, f2⟩ | ⟨x, x', r, r', f1, f2, f3, f4⟩
            · rw [f1, f2]
            · have hj : i % cutoff < cutoff := Nat.mod_lt _ hc1
              have hx := f1.1.1
              have hx' := ((hbeat _ _ hj).mpr f2.1).1
              have hxx : x = x' := by
                have := hfit _ t x x' r r' hj f1 f2
                refine hd x x' (V x) hx hx' (by rw [f1.1.2.1, f2.1.2.1]) (hV x (by rw [← hl]; exact hx)) ?_
                rw [← this]
                exact hV x (by rw [← hl]; exact hx)
              subst hxx
              rw [f3, f4]
              congr 1
              obtain ⟨ms, m, g1, g2, g3, g4⟩ := f1.2.1
              obtain ⟨ms', m', g1', g2', g3', g4'⟩ := f2.2.1
              rw [g1] at g1'
              cases g1'
              have hxl : x < b.pop.length - cutoff := by rw [← hl]; exact hx
              have hm : x % cutoff < b.pop.length := by have := Nat.mod_lt x hc1; omega
              have M := G.muts x hxl _ (List.getElem?_eq_getElem hm)
              have em : mutsOf b x = ms := by unfold mutsOf; rw [List.getD_eq_getElem?_getD, g1]; rfl
              have n1 := M.new m (by rw [em]; exact g2)
              have n2 := M.new m' (by rw [em]; exact g2')
              rw [g3] at n1
              rw [g3', n1] at n2
              rw [← g4, ← g4']
              exact Option.some.inj n2
          · rw [List.getElem?_eq_none (by omega), List.getElem?_eq_none (by omega)]
      · rw [List.getElem?_eq_none (by omega), List.getElem?_eq_none (by omega)]

/-! ### C47, C48 -/

/-- **C47**, modified algorithm, with `size - cutoff` tasks.  In every state of every evaluation (in the constructor and in all steps): no
goroutine panics; the channel never holds more than its capacity, so that no send blocks; as long as the collector has not
finished, some goroutine can move; schedules have bounded length; and when the collector has closed the channel it has received
exactly one result per task and no goroutine is left that could send. -/
theorem c47_modified_partial (S : MSetting F ok Dom N Repr srt cutoff init k) {b : Algo Dt K} (hb : ModStart F srt cutoff Dom N init k b) :
    ∃ bound, ∀ l p, Run F (b.pop.length - cutoff) (ptsOf b) (mutsOf b) (Ph.start b.sys) l p →
      (∀ w, Enabled (b.pop.length - cutoff) p w → (move F (b.pop.length - cutoff) (ptsOf b) (mutsOf b) p w).isSome) ∧
      p.chan.length ≤ b.pop.length ∧
      (¬ p.Finished (b.pop.length - cutoff) → ∃ w, Enabled (b.pop.length - cutoff) p w) ∧
      l.length ≤ bound ∧
      (p.Finished (b.pop.length - cutoff) → (p.arr.map Prod.fst).Perm (List.range (b.pop.length - cutoff)) ∧ p.chan = [] ∧
        ∀ w, ¬ Enabled (b.pop.length - cutoff) p w) := by
  obtain ⟨hpos, _, T, V, H⟩ := S.phase hb
  refine ⟨left F (b.pop.length - cutoff) T (Ph.start b.sys), fun l p h => ?_⟩
  obtain ⟨ch, ar, J⟩ := (PInv.start H).run H h
  refine ⟨fun w hw => ?_, ?_, J.progress hpos, ?_, fun hf => ?_⟩
  · obtain ⟨q, _, _, hq, _⟩ := J.move H hw
    rw [hq]; rfl
  · rw [J.chan, List.length_map]
    have := (List.subperm_of_subset J.chN (l₂ := List.range (b.pop.length - cutoff)) (fun i hi => by
      obtain ⟨id, e⟩ := (J.chT i).mp hi
      exact List.mem_range.mpr (J.lt (by rw [e]; simp)))).length_le
    rw [List.length_range] at this
    omega
  · have := PInv.bounded H hpos h (PInv.start H)
    omega
  · have D := J.done hf
    obtain ⟨ar', h1, h2⟩ := D.arr
    refine ⟨?_, D.chan, D.quiet⟩
    rw [h2, List.map_map]
    simpa [Function.comp_def] using h1

/-- Every execution can be continued by a step with any mutator: some schedule completes it. -/
theorem c47_modified_step_completes (S : MSetting F ok Dom N Repr srt cutoff init k) :
    (∃ l, ∃ a : Algo Dt K, NewMod F srt cutoff init k l a) ∧
      ∀ n a μ, PosExec F srt cutoff Dom N init k n a → FrontPos cutoff a → MutOK Dom N μ → ∃ l a', ModStep F srt cutoff μ l a a' :=
  ⟨S.new_exists, fun _ _ _ h hF hμ => S.step_exists h hF hμ⟩

/-- With `cutoff = size` the constructor never finishes: there is no task and the collector waits for ever. -/
theorem c47_modified_no_task (srt : Sorter) (init : List (List NP)) (k : Nat) (l : List Who) (a : Algo Dt K) :
    ¬ NewMod F srt init.length init k l a := by
  rintro ⟨b, q, st, h1, h2, h3, _⟩
  have : b.pop.length = init.length := by
    unfold simpleInit at h1
    simp only [Option.bind_eq_bind, Option.bind_eq_some_iff] at h1
    obtain ⟨_, _, h⟩ := h1
    cases h
    rfl
  rw [this, Nat.sub_self] at h3
  exact absurd h3.2 (by omega)

/-- With `cutoff = 0` the constructor panics. -/
theorem c47_modified_no_cutoff (srt : Sorter) (init : List (List NP)) (k : Nat) (l : List Who) (a : Algo Dt K) :
    ¬ NewMod F srt 0 init k l a := by
  rintro ⟨b, q, st, h1, h2, h3, h4, _⟩
  have harr : ∀ {l : List Who} {q : Ph Dt K}, Run F (b.pop.length - 0) (ptsOf b) (mutsOf b) (Ph.start b.sys) l q → ∀ m, q.pc = .recv m → q.arr.length = m := by
    intro l q h
    induction h with
    | nil => intro m h; cases h
    | @snoc q r l w hr he hm ih =>
      intro m hpc
      cases w with
      | work i =>
        have hq : r.pc = q.pc ∧ r.arr = q.arr := by
          unfold move at hm
          simp only at hm
          split at hm <;> simp only [Option.bind_eq_bind, Option.bind_eq_some_iff, Option.some.injEq, reduceCtorEq] at hm
          · obtain ⟨_, _, rfl⟩ := hm; exact ⟨rfl, rfl⟩
          · obtain ⟨_, _, rfl⟩ := hm; exact ⟨rfl, rfl⟩
          · subst hm; exact ⟨rfl, rfl⟩
          · subst hm; exact ⟨rfl, rfl⟩
        rw [hq.2]
        exact ih m (hq.1 ▸ hpc)
      | main =>
        unfold move at hm
        simp only at hm
        split at hm
        · split at hm
          · simp only [Option.bind_eq_bind, Option.bind_eq_some_iff, Option.some.injEq] at hm
            obtain ⟨_, _, rfl⟩ := hm
            cases hpc
          · have : ∀ {l : List Who} {q : Ph Dt K}, Run F (b.pop.length - 0) (ptsOf b) (mutsOf b) (Ph.start b.sys) l q → ∀ m, q.pc = .sub m → q.arr = [] := by
              intro l q h
              induction h with
              | nil => intro m h; rfl
              | @snoc q r l w hr he hm ih =>
                intro m hpc
                cases w with
                | work i =>
                  have hq : r.pc = q.pc ∧ r.arr = q.arr := by
                    unfold move at hm
                    simp only at hm
                    split at hm <;> simp only [Option.bind_eq_bind, Option.bind_eq_some_iff, Option.some.injEq, reduceCtorEq] at hm
                    · obtain ⟨_, _, rfl⟩ := hm; exact ⟨rfl, rfl⟩
                    · obtain ⟨_, _, rfl⟩ := hm; exact ⟨rfl, rfl⟩
                    · subst hm; exact ⟨rfl, rfl⟩
                    · subst hm; exact ⟨rfl, rfl⟩
                  rw [hq.2]
                  exact ih m (hq.1 ▸ hpc)
                | main =>
                  unfold move at hm
                  simp only at hm
                  split at hm
                  · rename_i k' hk'
                    split at hm
                    · simp only [Option.bind_eq_bind, Option.bind_eq_some_iff, Option.some.injEq] at hm
                      obtain ⟨_, _, rfl⟩ := hm
                      exact ih _ hk'
                    · cases hm; cases hpc
                  · split at hm
                    · cases hm
                    · simp only [Option.bind_eq_bind, Option.bind_eq_some_iff, Option.some.injEq] at hm
                      obtain ⟨_, _, _, _, rfl⟩ := hm
                      cases hpc
            rename_i k' hk' _
            cases hm
            cases hpc
            show q.arr.length = 0
            rw [this hr _ hk']; rfl
        · split at hm
          · cases hm
          · rename_i m' hm' i v rest hch
            simp only [Option.bind_eq_bind, Option.bind_eq_some_iff, Option.some.injEq] at hm
            obtain ⟨_, _, _, _, rfl⟩ := hm
            cases hpc
            show (q.arr ++ [(i, v)]).length = _
            rw [List.length_append, ih _ (by assumption)]; rfl
  have hlen := harr h2 _ h3.1
  have hp := h3.2
  cases hq : q.arr with
  | nil => rw [hq] at hlen; simp at hlen; omega
  | cons x xs =>
    rw [hq, List.foldlM_cons] at h4
    simp [recvStep] at h4

/-- **C48**, modified algorithm: in no state of any evaluation can two goroutines access the same memory location at once, one of them
writing it. -/
theorem c48_modified_partial (S : MSetting F ok Dom N Repr srt cutoff init k) {b : Algo Dt K} (hb : ModStart F srt cutoff Dom N init k b)
    {l : List Who} {p : Ph Dt K} (h : Run F (b.pop.length - cutoff) (ptsOf b) (mutsOf b) (Ph.start b.sys) l p) :
    ¬ ∃ w w', w ≠ w' ∧ Enabled (b.pop.length - cutoff) p w ∧ Enabled (b.pop.length - cutoff) p w' ∧
      ∃ x ∈ writes (b.pop.length - cutoff) p w, x ∈ reads F (b.pop.length - cutoff) p w' ∨ x ∈ writes (b.pop.length - cutoff) p w' := by
  obtain ⟨_, _, T, V, H⟩ := S.phase hb
  obtain ⟨ch, ar, J⟩ := (PInv.start H).run H h
  exact J.noRace H

/-! ### C64 -/

/-- **C64**: between steps, a member of the modified algorithm is either evaluated, with an evaluator that holds a triangulation that represents
its points and a fitness that is that of this triangulation, or left out with fitness 0; all members but the last `cutoff` are evaluated. -/
theorem c64_modified_partial (S : MSetting F ok Dom N Repr srt cutoff init k) {n : Nat} {a : Algo Dt K}
    (h : PosExec F srt cutoff Dom N init k n a) (hF : FrontPos cutoff a) {i : Nat} {ps : List NP} (hi : a.pop[i]? = some ps) :
    (∃ id d v, a.sys.slots[i]? = some id ∧ (a.sys.fns id).tri = some d ∧ Repr d ps ∧ a.fit[i]? = some v ∧ plain F d = some v) ∨
      (a.fit[i]? = some 0 ∧ init.length - cutoff ≤ i) := by
  obtain ⟨J, h1, _⟩ := S.exec h
  have hx := (List.getElem?_eq_some_iff.mp hi).1
  have hid := slots_idAt (s := a.sys) (i := i) (by rw [J.shape.lenS]; exact hx)
  have hf : a.fit[i]? = some (a.fit[i]'(by rw [J.shape.lenF]; exact hx)) := List.getElem?_eq_getElem _
  rcases J.members i _ _ _ hi hf hid with ⟨d, e1, _, _, e2, e3⟩ | ⟨e1, _⟩
  · exact Or.inl ⟨_, d, _, hid, e1, e2, hf, e3⟩
  · right
    rw [e1] at hf
    refine ⟨hf, ?_⟩
    by_contra hlt
    obtain ⟨v, e2, e3⟩ := hF i (by rw [h1]; omega)
    rw [hf] at e2
    cases e2
    exact absurd e3 (lt_irrefl _)

/-! ### The theorems apply

A positive fitness function: 1 plus the sum of the squares of the x coordinates. -/

/-- The fitness function of the examples. -/
def sqFun : Fun (List NP) NP := bagFun (fun p => p.x ^ 2) (fun l => 1 + (l.map Prod.snd).sum)

theorem bag_vals (f : NP → ℚ) (fin : List (NP × ℚ) → ℚ) : ∀ ps : List NP, vals (bagFun f fin) ps = some (ps.map fun p => (p, f p)) := by
  intro ps
  induction ps with
  | nil => rfl
  | cons p ps ih =>
    rw [vals_cons, ih]
    rfl

theorem sq_positive : Positive sqFun (fun d ps => d.Perm ps) := by
  intro d ps v _ h
  unfold plain sqFun at h
  rw [show (bagFun (fun p => p.x ^ 2) (fun l => 1 + (l.map Prod.snd).sum)).keys d = d from rfl, bag_vals] at h
  cases h
  show 0 < 1 + ((d.map fun p => (p, p.x ^ 2)).map Prod.snd).sum
  have : 0 ≤ ((d.map fun p => (p, p.x ^ 2)).map Prod.snd).sum := by
    apply List.sum_nonneg
    intro x hx
    simp only [List.map_map, List.mem_map] at hx
    obtain ⟨p, _, rfl⟩ := hx
    exact sq_nonneg _
  linarith

/-- Member `i` moves its first point to `f i`. -/
def setFirst (f : Nat → NP) : Mutator := fun i ps =>
  match ps with
  | [] => ([], [])
  | p :: ps => (f i :: ps, [⟨p, f i, 0⟩])

theorem setFirst_ok {Dom : NP → Prop} {f : Nat → NP} (hf : ∀ i, Dom (f i)) (N : Nat) : MutOK Dom N (setFirst f) := by
  intro i ps _ _
  cases ps with
  | nil => exact Mutates.refl _ _
  | cons p ps =>
    refine ⟨rfl, by simp [setFirst], by simp [setFirst], by simp [setFirst], ?_, ?_⟩
    · intro j hj
      cases j with
      | zero => exact absurd rfl (hj _ (by simp [setFirst]; rfl))
      | succ j => rfl
    · intro m hm
      simp only [setFirst, List.mem_singleton] at hm
      subst hm
      exact hf i

/-- Four members of two points. -/
def quad : List (List NP) := [[⟨0, 0⟩, ⟨1 / 2, 0⟩], [⟨1 / 8, 0⟩, ⟨1 / 2, 0⟩], [⟨1 / 8, 0⟩, ⟨1 / 4, 0⟩], [⟨1, 1⟩, ⟨1, 1⟩]]

theorem quad_setting : MSetting sqFun (fun _ => True) (fun _ => True) 2 (fun d ps => d.Perm ps) selSorter 1 quad 3 :=
  ⟨bag_laws _ _ _ _, selSorter_ok, by norm_num, le_rfl, by decide, by decide⟩

/-- The conditions of all theorems above can be met, after any number of steps. -/
example (n : Nat) : ∃ a l a', PosExec sqFun selSorter 1 (fun _ => True) 2 quad 3 n a ∧ FrontPos 1 a ∧
    ModStep sqFun selSorter 1 (setFirst fun i => ⟨i / (i + 1), 0⟩) l a a' ∧ a.bestFit ≤ a'.bestFit ∧ a.gen = n := by
  have hμ := setFirst_ok (Dom := fun _ => True) (f := fun i => ⟨i / (i + 1), 0⟩) (fun _ => trivial) 2
  obtain ⟨a, h⟩ := quad_setting.exec_exists sq_positive hμ n
  obtain ⟨h1, h2⟩ := quad_setting.posExec sq_positive h
  obtain ⟨l, a', hs⟩ := (c47_modified_step_completes quad_setting).2 n a _ h1 h2 hμ
  exact ⟨a, l, a', h1, h2, hs, c42_modified_partial quad_setting h1 h2 hμ hs, (c44_modified_partial quad_setting h1).1⟩

/-- The first step of the example, evaluated in two orders. -/
def quadStep (order : List Nat) : Option (Algo (List NP) NP) := do
  let a ← playNewMod sqFun selSorter 1 quad 3 (inOrder 3 (fun _ => 2) [0, 1, 2])
  let b ← newGeneration (setFirst fun i => ⟨i / (i + 1), 0⟩) 1 (a.pop.length - 1) a
  playEval sqFun 1 (inOrder 3 (fun _ => 2) order) b

/-- C45, C46: members 1 and 2 move the first point of the base to 1/2 and 2/3 and both beat the base; the combined member takes 2/3 whatever the order. -/
example : (quadStep [0, 1, 2]).map (fun c => c.pop) = some [[⟨1 / 8, 0⟩, ⟨1 / 2, 0⟩], [⟨1 / 2, 0⟩, ⟨1 / 2, 0⟩], [⟨2 / 3, 0⟩, ⟨1 / 2, 0⟩], [⟨2 / 3, 0⟩, ⟨1 / 2, 0⟩]] ∧
    (quadStep [2, 1, 0]).map (fun c => (c.pop, c.fit)) = (quadStep [0, 1, 2]).map (fun c => (c.pop, c.fit)) := by
  decide +kernel

/-! ### The condition on the fitnesses is necessary -/

/-- A fitness function with constant value -1. -/
def negFun : Fun (List NP) NP := bagFun (fun _ => 0) (fun _ => -1)

/-- Three members of one point. -/
def singles : List (List NP) := [[⟨0, 0⟩], [⟨1, 0⟩], [⟨0, 1⟩]]

theorem singles_setting : MSetting negFun (fun _ => True) (fun _ => True) 1 (fun d ps => d.Perm ps) selSorter 1 singles 3 :=
  ⟨bag_laws _ _ _ _, selSorter_ok, by norm_num, le_rfl, by decide, by decide⟩

/-- Nothing is mutated. -/
def still : Mutator := fun _ ps => (ps, [])

theorem still_ok (Dom : NP → Prop) (N : Nat) : MutOK Dom N still := fun _ _ _ _ => Mutates.refl _ _

/-- The state after the constructor. -/
def negNew : Option (Algo (List NP) NP) := playNewMod negFun selSorter 1 singles 3 (inOrder 2 (fun _ => 1) [0, 1])

/-- **C43 fails** for the modified algorithm with fitnesses that are not positive: after the constructor the best fitness is 0, the fitness of a member that
was not evaluated, although all point groups have fitness -1. -/
theorem c43_modified_false : ∃ l, ∃ a : Algo (List NP) NP, NewMod negFun selSorter 1 singles 3 l a ∧ a.bestFit = 0 ∧ ∀ d : List NP, plain negFun d = some (-1) := by
  have h : (negNew.map fun a => decide (a.bestFit = 0)) = some true := by decide +kernel
  cases ha : negNew with
  | none => rw [ha] at h; cases h
  | some a =>
    rw [ha] at h
    refine ⟨_, a, playNewMod_ok ha, by simpa using h, fun d => ?_⟩
    unfold plain negFun
    rw [bag_vals]
    rfl

/-- The state in the second step after `newGeneration`. -/
def negGen : Option (Algo (List NP) NP) := do
  let a ← negNew
  let a ← playMod negFun selSorter 1 still (inOrder 2 (fun _ => 1) [0, 1]) a
  newGeneration still 1 (a.pop.length - 1) a

/-- The second evaluation: worker 0 is about to look up its first piece in the cache while the collector is about to store the pieces of member 1. -/
def negRace : Option (Ph (List NP) NP) := do
  let b ← negGen
  play negFun 2 (ptsOf b) (mutsOf b) (Ph.start b.sys) [.main, .main, .main, .work 0, .work 1, .work 1, .work 1, .work 1]

/-- The array index a worker is about to read in a shared cache array. -/
def readCell (F : Fun Dt K) (p : Ph Dt K) (i : Nat) : Option (Bool × Nat) :=
  match p.tasks i with
  | .loop _ (.shared b) _ (key :: _) _ => some (b, indexOf (F.hash key) (2 ^ p.sys.k))
  | _ => none

/-- The array indexes the collector is about to write. -/
def writeCells (p : Ph Dt K) : List (Bool × Nat) :=
  match p.pc, p.chan with
  | .recv _, (i, _) :: _ =>
    match p.sys.slots[i]? with
    | some id => (cacheOf p.sys (p.sys.fns id)).filterMap fun e => e.map fun e => (p.sys.cur, e.hash)
    | none => []
  | _, _ => []

theorem race_of_cells {F : Fun Dt K} {n : Nat} {p : Ph Dt K} {i : Nat} {x : Bool × Nat} (h1 : readCell F p i = some x) (h2 : x ∈ writeCells p)
    (h3 : enabledB n p .main = true) : Race F n p := by
  refine ⟨.main, .work i, by simp, enabledB_iff.mp h3, ?_, .cell x.1 x.2, ?_, Or.inl ?_⟩
  · unfold readCell at h1
    split at h1
    · rename_i hp
      simp only [Enabled, hp]
    · cases h1
  · unfold writeCells at h2
    split at h2
    · rename_i hpc hch
      split at h2
      · rename_i id hid
        simp only [List.mem_filterMap] at h2
        obtain ⟨e, he, h4⟩ := h2
        cases e with
        | none => cases h4
        | some e =>
          cases h4
          simp only [writes, hpc, hch]
          exact ⟨id, hid, Or.inr ⟨e, he, rfl⟩⟩
      · cases h2
    · cases h2
  · unfold readCell at h1
    split at h1
    · rename_i id b _ key _ _ hp
      cases h1
      simp only [reads, hp]
      exact Or.inr ⟨b, rfl, rfl⟩
    · cases h1

/-- **C48 fails** for the modified algorithm with fitnesses that are not positive: a member left out in one step, whose function still
reads the cache array of the step before, is sorted to the front; in the next step this array is the one the collector writes. -/
theorem c48_modified_false : ∃ (a b : Algo (List NP) NP) (l : List Who) (p : Ph (List NP) NP),
    ModExec negFun selSorter 1 (MutOK (fun _ => True) 1) (fun _ => True) singles 3 1 a ∧
      newGeneration still 1 (a.pop.length - 1) a = some b ∧
      Run negFun (b.pop.length - 1) (ptsOf b) (mutsOf b) (Ph.start b.sys) l p ∧ Race negFun (b.pop.length - 1) p := by
  have h : (negRace.map fun p => (readCell negFun p 0, writeCells p, enabledB 2 p .main)) = some (some (true, 0), [(true, 0)], true) := by decide +kernel
  have hlen : (negGen.map fun b => b.pop.length) = some 3 := by decide +kernel
  cases ha : negNew with
  | none =>
    have : negGen = none := by unfold negGen; rw [ha]; rfl
    rw [this] at hlen; cases hlen
  | some a0 =>
    cases ha1 : playMod negFun selSorter 1 still (inOrder 2 (fun _ => 1) [0, 1]) a0 with
    | none =>
      have : negGen = none := by unfold negGen; rw [ha]; simp [ha1]
      rw [this] at hlen; cases hlen
    | some a =>
      have hg : negGen = newGeneration still 1 (a.pop.length - 1) a := by unfold negGen; rw [ha]; simp [ha1]
      cases hb : newGeneration still 1 (a.pop.length - 1) a with
      | none => rw [hg, hb] at hlen; cases hlen
      | some b =>
        rw [hg, hb] at hlen
        have hl : b.pop.length - 1 = 2 := by
          have : b.pop.length = 3 := by simpa using hlen
          omega
        cases hp : play negFun 2 (ptsOf b) (mutsOf b) (Ph.start b.sys) [.main, .main, .main, .work 0, .work 1, .work 1, .work 1, .work 1] with
        | none =>
          have : negRace = none := by unfold negRace; rw [hg, hb]; exact hp
          rw [this] at h; cases h
        | some p =>
          have : negRace = some p := by unfold negRace; rw [hg, hb]; exact hp
          rw [this] at h
          simp only [Option.map_some, Option.some.injEq, Prod.mk.injEq] at h
          refine ⟨a, b, [.main, .main, .main, .work 0, .work 1, .work 1, .work 1, .work 1], p, .step (.new (playNewMod_ok ha)) trivial (still_ok _ _) (playMod_ok ha1), hb, ?_, ?_⟩
          · rw [hl]; exact play_run _ hp
          · rw [hl]
            exact race_of_cells h.1 (by rw [h.2.1]; simp) h.2.2

end Verif.Props

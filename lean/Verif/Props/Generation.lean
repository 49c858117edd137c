import Verif.Props.Default
import Verif.Props.Modified

/-! # C101, C102: what a generation consists of; runs can be repeated -/

namespace Verif.Props

open Verif.Tri Verif.Spec Verif.Float Verif.Raster Verif.Fit Verif.Small Verif.Alg
open Verif.Incr hiding trunc step run Entry

/-- The mutants of a generation: `μ` is given the first `cutoff` members in turn, `k` times in all. -/
def mutants (μ : Mutator) (cutoff k : Nat) (pop : List (List NP)) : List (List NP) :=
  (List.range k).map fun j => (μ (cutoff + j) (pop.getD (j % cutoff) [])).1

/-- The `i`-th largest number of a list is not less than the `i`-th of numbers in it. -/
theorem sorted_dominates {a l m : List ℚ} (ha : a.Pairwise (· ≥ ·)) (hl : l.Pairwise (· ≥ ·)) (hp : l.Perm m) {c : Nat} (hc : c ≤ a.length)
    (h : ∀ i < c, m[i]? = a[i]?) {i : Nat} (hi : i < c) : ∃ x y, a[i]? = some x ∧ l[i]? = some y ∧ x ≤ y := by
  have hx : a[i]? = some a[i] := List.getElem?_eq_getElem (by omega)
  have hm : i < m.length := by
    have := h i hi
    rw [hx] at this
    exact (List.getElem?_eq_some_iff.mp this).1
  have hil : i < l.length := by rw [hp.length_eq]; exact hm
  refine ⟨a[i], l[i], hx, List.getElem?_eq_getElem hil, ?_⟩
  by_contra hlt
  rw [not_le] at hlt
  have c1 : i + 1 ≤ m.countP (fun v => decide (a[i] ≤ v)) := by
    have e : (m.take (i + 1)).countP (fun v => decide (a[i] ≤ v)) = i + 1 := by
      have : (m.take (i + 1)).length = i + 1 := by rw [List.length_take]; omega
      refine Eq.trans (List.countP_eq_length.mpr fun v hv => ?_) this
      obtain ⟨j, hj, rfl⟩ := List.getElem_of_mem hv
      rw [this] at hj
      have h1 := h j (by omega)
      rw [List.getElem?_eq_getElem (show j < a.length by omega), List.getElem?_eq_getElem (show j < m.length by omega)] at h1
      rw [List.getElem_take, Option.some.inj h1]
      rcases Nat.lt_or_eq_of_le (Nat.le_of_lt_succ hj) with hji | rfl
      · simpa using List.pairwise_iff_getElem.mp ha j i (by omega) (by omega) hji
      · simp
    exact e.ge.trans ((List.take_sublist _ _).countP_le)
  have c2 : l.countP (fun v => decide (a[i] ≤ v)) ≤ i := by
    rw [← List.take_append_drop i l, List.countP_append]
    have e : (l.drop i).countP (fun v => decide (a[i] ≤ v)) = 0 := by
      rw [List.countP_eq_zero]
      intro v hv
      obtain ⟨j, hj, rfl⟩ := List.getElem_of_mem hv
      rw [List.length_drop] at hj
      rw [List.getElem_drop]
      have : l[i + j] ≤ l[i] := by
        rcases Nat.eq_zero_or_pos j with rfl | hj0
        · exact le_rfl
        · exact List.pairwise_iff_getElem.mp hl i (i + j) hil (by omega) (by omega)
      simpa using this.trans_lt hlt
    rw [e, add_zero]
    exact List.countP_le_length.trans (by rw [List.length_take]; omega)
  rw [hp.countP_eq] at c2
  omega

section
variable {Dt K : Type} {F : Fun Dt K} {ok : K → Prop} {Dom : NP → Prop} {Repr : Dt → List NP → Prop} {N : Nat} {srt : Sorter} {cutoff : Nat}
  {init : List (List NP)} {k : Nat}

/-- The front of the population after `newGeneration`. -/
theorem gen_take {μ : Mutator} {lim : Nat} {a b : Algo Dt K} (G : GenDone μ cutoff lim a b) (h0 : 1 ≤ cutoff) (h1 : cutoff ≤ lim) (h2 : lim ≤ a.pop.length) :
    b.pop.take lim = a.pop.take cutoff ++ mutants μ cutoff (lim - cutoff) a.pop := by
  apply List.ext_getElem?
  intro x
  have hlen : (a.pop.take cutoff).length = cutoff := by rw [List.length_take]; omega
  by_cases hx : x < lim
  · rw [List.getElem?_take_of_lt hx]
    by_cases hc : x < cutoff
    · rw [List.getElem?_append_left (by omega), List.getElem?_take_of_lt hc]
      exact (G.elite x hc).1
    · rw [List.getElem?_append_right (by omega), hlen, (G.mutd x (by omega) hx).1]
      unfold mutants
      have hm : x % cutoff < a.pop.length := (Nat.mod_lt _ h0).trans_le (by omega)
      have e : (x - cutoff) % cutoff = x % cutoff := by
        conv_rhs => rw [← Nat.sub_add_cancel (show cutoff ≤ x by omega)]
        rw [Nat.add_mod_right]
      rw [List.getElem?_map, List.getElem?_range (by omega), List.getElem?_eq_getElem hm]
      simp only [Option.map_some, e, List.getD_eq_getElem?_getD, List.getElem?_eq_getElem hm, Option.getD_some]
      rw [show cutoff + (x - cutoff) = x by omega]
  · rw [List.getElem?_eq_none (by rw [List.length_take]; omega), List.getElem?_eq_none]
    unfold mutants
    rw [List.length_append, hlen, List.length_map, List.length_range]
    omega

/-- **C101**, simple algorithm: the first generation consists of the groups of the generator. -/
theorem c101_new (S : Setting F ok Dom N Repr srt cutoff init k) {l : List Who} {a : Algo Dt K} (h : NewSimple F srt init k l a) : a.pop.Perm init := by
  obtain ⟨b, T, V, hb, hp, -, -, -, -, Sb, H, hr⟩ := init_phase S.laws S.exponent (S.cutoff1.trans S.cutoff2) le_rfl S.init
  obtain ⟨a1, q, h1, h2, h3, h4⟩ := h
  rw [hb] at h1
  cases h1
  have e : init.length = b.pop.length := by rw [hp]
  rw [e] at H hr
  obtain ⟨c, hc', -, U, -⟩ := simple_finish S.sort Sb H hr h2 h3
  unfold evalState at hc'
  rw [h4] at hc'
  cases hc'
  rw [← hp]
  exact U.pop

/-- **C101**, simple algorithm: after a step the population consists of the `cutoff` fittest members, unchanged, and of mutants of them, made in turn; and for
every `i < cutoff` the `i`-th best fitness is at least the `i`-th best one before. -/
theorem c101_simple (S : Setting F ok Dom N Repr srt cutoff init k) {n : Nat} {a a' : Algo Dt K} {μ : Mutator} {l : List Who}
    (h : SimpleExec F srt cutoff (MutOK Dom N) init k n a) (hμ : MutOK Dom N μ) (hs : SimpleStep F srt cutoff μ l a a') :
    a'.pop.Perm (a.pop.take cutoff ++ mutants μ cutoff (init.length - cutoff) a.pop) ∧
      ∀ i < cutoff, ∃ x y, a.fit[i]? = some x ∧ a'.fit[i]? = some y ∧ x ≤ y := by
  obtain ⟨I, hlen, _⟩ := S.exec h
  have hcp : cutoff ≤ a.pop.length := by rw [hlen]; exact S.cutoff2
  obtain ⟨b, T, V, hb, G, Sb, H, hr, hv⟩ := I.gen S.laws hμ S.cutoff1 hcp
  obtain ⟨a1, q, a2, h1, h2, h3, h4, rfl⟩ := hs
  rw [hb] at h1
  cases h1
  obtain ⟨c, hc', Ic, U, Dn⟩ := simple_finish S.sort Sb H hr h2 h3
  unfold evalState at hc'
  rw [h4] at hc'
  cases hc'
  constructor
  · have e := gen_take G S.cutoff1 hcp le_rfl
    rw [← G.len, List.take_length, G.len, hlen] at e
    rw [← e]
    exact U.pop
  · intro i hi
    refine sorted_dominates I.sorted Ic.sorted U.fit (by rw [I.shape.lenF]; exact hcp) (fun j hj => ?_) hi
    have : (collect b.fit q.arr)[j]? = some (V j) := by
      rw [phase_fit (by rw [Sb.lenF]) Dn, if_pos (by rw [G.len]; omega)]
    rw [hv j hj]
    exact this

/-- **C101**, modified algorithm (partial: under the conditions of C42): after a step the population consists of the `cutoff` fittest members, unchanged, of mutants of
them, made in turn, and of `cutoff` combined members (C46); and for every `i < cutoff` the `i`-th best fitness is at least the `i`-th best one before. -/
theorem c101_modified_partial (S : MSetting F ok Dom N Repr srt cutoff init k) {n : Nat} {a a' : Algo Dt K} {μ : Mutator} {l : List Who}
    (h : PosExec F srt cutoff Dom N init k n a) (hF : FrontPos cutoff a) (hμ : MutOK Dom N μ) (hs : ModStep F srt cutoff μ l a a') :
    (∃ rest, rest.length = cutoff ∧ a'.pop.Perm (a.pop.take cutoff ++ mutants μ cutoff (init.length - 2 * cutoff) a.pop ++ rest)) ∧
      ∀ i < cutoff, ∃ x y, a.fit[i]? = some x ∧ a'.fit[i]? = some y ∧ x ≤ y := by
  have hc2 := S.cutoff2
  have hc1 := S.cutoff1
  obtain ⟨I, hlen, _⟩ := S.exec h
  obtain ⟨b, T, V, hb, Gd, G⟩ := I.gen S.laws hμ hF S.cutoff1 (by omega)
  obtain ⟨b', c, d, h1, ⟨q, st', h2, h3, h4, h5⟩, h6, rfl⟩ := hs
  rw [hb] at h1
  cases h1
  obtain ⟨ar, st, c', E⟩ := G.eval S.laws S.cutoff1 h2 h3
  rw [E.fold] at h4
  cases h4
  rw [E.comb] at h5
  cases h5
  obtain ⟨hM, hV⟩ := E.members G S.cutoff1
  have hlc : c.pop.length = b.pop.length := E.inv.len
  obtain ⟨d', hd', Id, U⟩ := mod_update S.sort E.inv.shape hM
  rw [h6] at hd'
  cases hd'
  have hbl := Gd.len
  constructor
  · refine ⟨c.pop.drop (a.pop.length - cutoff), by rw [List.length_drop]; omega, ?_⟩
    have e := gen_take Gd S.cutoff1 (by omega) (by omega)
    have e2 : c.pop.take (a.pop.length - cutoff) = b.pop.take (a.pop.length - cutoff) := by
      apply List.ext_getElem?
      intro x
      by_cases hx : x < a.pop.length - cutoff
      · rw [List.getElem?_take_of_lt hx, List.getElem?_take_of_lt hx]
        exact (E.inv.low x (by omega)).1
      · rw [List.getElem?_eq_none (by rw [List.length_take]; omega), List.getElem?_eq_none (by rw [List.length_take]; omega)]
    rw [show init.length - 2 * cutoff = a.pop.length - cutoff - cutoff by omega, ← e, ← e2, List.take_append_drop]
    exact U.pop
  · intro i hi
    refine sorted_dominates I.sorted Id.sorted U.fit (by rw [I.shape.lenF]; omega) (fun j hj => ?_) hi
    rw [hV j (by omega), ← G.base j hj, Gd.fit]

end

section
variable {σ : Type} {r : Source σ} {im : Source16} {n : Int} {srt : Alg.Sorter} {z : ℚ} {bf : D → D → Bufs} {s0 : σ}

/-- **C101**, `DefaultAlgorithm` (partial: IEEE arithmetic, images up to 4096 pixels a side): a step keeps the five fittest members and replaces the others by 395 mutants, which
`Mutate` makes of copies of these five in turn, one after the other; the next step goes on with the random numbers that follow. -/
theorem c101_default_partial (S : DefaultOK r im n srt) {g : Nat} {a a' : Algo D Tri} {s s' : σ} {l : List Who} (h : DefaultExec ieee srt z bf r im n s0 g a s)
    (hs : DefaultStep ieee srt z bf r im n l a s a' s') :
    ∃ ms, inTurn (fun s ps => let x := gaussian r ieee.r64 (ieee.r32 (2 / ieee.r32 n)) (ieee.r64 (3 / 10)) s ps; (x.1, x.2.2))
        ((List.range 395).map fun m => a.pop.getD (m % 5) []) s = (ms, s') ∧
      a'.pop.Perm (a.pop.take 5 ++ ms) ∧ ∀ i < 5, ∃ x y, a.fit[i]? = some x ∧ a'.fit[i]? = some y ∧ x ≤ y := by
  have E := default_exec S h
  have T := S.setting s0
  obtain ⟨I, i1, i2, i3⟩ := hs
  rw [S.image] at i1
  cases i1
  obtain ⟨h1, h2⟩ := c101_simple (T.setting z bf) E (default_mutator r ieee n 5 a.pop s _) i2
  rw [(draw_spec S.source n 400 s0).1] at h1
  have hm := c78_mutants r ieee n 5 a.pop s 395
  have fst : ∀ (f : σ → List NP → (List NP × List Mut) × σ) (L : List (List NP)) (s : σ),
      inTurn (fun s ps => ((f s ps).1.1, (f s ps).2)) L s = ((inTurn f L s).1.map Prod.fst, (inTurn f L s).2) := by
    intro f L
    induction L with
    | nil => intro s; rfl
    | cons x L ih => intro s; simp only [inTurn, ih, List.map_cons]
  refine ⟨mutants (defaultMutator r ieee n 5 a.pop s) 5 395 a.pop, ?_, h1, h2⟩
  have := fst (fun s ps => let x := gaussian r ieee.r64 (ieee.r32 (2 / ieee.r32 n)) (ieee.r64 (3 / 10)) s ps; ((x.1, x.2.1), x.2.2))
    ((List.range 395).map fun m => a.pop.getD (m % 5) []) s
  rw [hm] at this
  refine this.trans ?_
  rw [i3]
  unfold mutants
  rw [List.map_map]
  rfl

/-- **C101**, `DefaultAlgorithm` (partial: as above): the first generation consists of 400 groups that the generator made one after the other; the first step goes on with the random
numbers that follow. -/
theorem c101_default_new_partial (S : DefaultOK r im n srt) {l : List Who} {a : Algo D Tri} {s : σ} (h : DefaultNew ieee srt z bf r im n s0 l a s) :
    ∃ gs, draw r n 400 s0 = (gs, s) ∧ a.pop.Perm gs := by
  obtain ⟨I, P, i1, -, i2, i3⟩ := h
  rw [S.image] at i1
  cases i1
  exact ⟨_, by rw [i3], c101_new ((S.setting s0).setting z bf) i2⟩

/-- Two executions of `DefaultAlgorithm` from one state of the random source call the same mutators. -/
theorem default_traces (S : DefaultOK r im n srt) {g : Nat} {a b : Algo D Tri} {s t : σ} (h : DefaultExec ieee srt z bf r im n s0 g a s)
    (h' : DefaultExec ieee srt z bf r im n s0 g b t) :
    s = t ∧ ∃ μs, (∀ μ ∈ μs, MutOK Unit01 n.toNat μ) ∧
      SimpleTrace (triFun (gridGeo ieee im.maxX.toNat im.maxY.toNat) (rne 53) z (theImage im) 5 bf) srt 5 (draw r n 400 s0).1 22 μs a ∧
      SimpleTrace (triFun (gridGeo ieee im.maxX.toNat im.maxY.toNat) (rne 53) z (theImage im) 5 bf) srt 5 (draw r n 400 s0).1 22 μs b := by
  induction g generalizing a b s t with
  | zero =>
    cases h with
    | new h =>
      cases h' with
      | new h' =>
        obtain ⟨I, P, h1, h2, h3, rfl⟩ := h
        obtain ⟨I', P', k1, k2, k3, rfl⟩ := h'
        rw [S.image] at h1 k1
        cases h1
        cases k1
        exact ⟨rfl, [], by simp, .new h3, .new k3⟩
  | succ g ih =>
    cases h with
    | step h hs =>
      cases h' with
      | step h' hs' =>
        obtain ⟨rfl, μs, hM, t1, t2⟩ := ih h h'
        obtain ⟨I, h1, h2, rfl⟩ := hs
        obtain ⟨I', k1, k2, rfl⟩ := hs'
        rw [S.image] at h1 k1
        cases h1
        cases k1
        have e := (c45_triangles_partial (S.setting s0) hM t1 t2).1
        rw [← e] at k2 ⊢
        refine ⟨rfl, μs ++ [_], ?_, .step t1 h2, .step t2 k2⟩
        intro μ hμ
        rcases List.mem_append.mp hμ with hμ | hμ
        · exact hM μ hμ
        · rw [List.mem_singleton.mp hμ]
          exact default_mutator _ _ _ _ _ _ _

/-- **C102** (partial: IEEE arithmetic, images up to 4096 pixels a side): two runs of `DefaultAlgorithm` with the same image and number of points that start with the random source in
the same state agree after every number of steps, whatever the schedules: members and fitnesses in the same order, `Best()`, the statistics, and the state of the source. -/
theorem c102_default_partial (S : DefaultOK r im n srt) {g : Nat} {a b : Algo D Tri} {s t : σ} (h : DefaultExec ieee srt z bf r im n s0 g a s)
    (h' : DefaultExec ieee srt z bf r im n s0 g b t) :
    a.pop = b.pop ∧ a.fit = b.fit ∧ a.best = b.best ∧ a.bestFit = b.bestFit ∧ a.gen = b.gen ∧ s = t := by
  obtain ⟨e, μs, hM, t1, t2⟩ := default_traces S h h'
  obtain ⟨h1, h2, h3, h4, h5, -⟩ := c45_triangles_partial (S.setting s0) hM t1 t2
  exact ⟨h1, h2, h3, h4, h5, e⟩

end

/-- C101, simple algorithm: the eighth step of the 40 x 30 case keeps one member and makes two mutants of it. -/
example : ∃ a a' l, SimpleExec trioFun someSorter 1 (MutOK Unit01 3) trio 22 7 a ∧ SimpleStep trioFun someSorter 1 moveFirst l a a' ∧
    a'.pop.Perm (a.pop.take 1 ++ [(moveFirst 1 (a.pop.getD 0 [])).1, (moveFirst 2 (a.pop.getD 0 [])).1]) := by
  obtain ⟨a, h⟩ := trio_exec 7
  obtain ⟨l, a', hs⟩ := (c47_step_completes (trio_setting.setting _ _)).2 7 a moveFirst h (moveFirst_ok 3)
  exact ⟨a, a', l, h, hs, (c101_simple (trio_setting.setting _ _) h (moveFirst_ok 3) hs).1⟩

/-- C101, modified algorithm: one member kept, two mutants, one combined member. -/
example (n : Nat) : ∃ a l a' c, PosExec sqFun selSorter 1 (fun _ => True) 2 quad 3 n a ∧ ModStep sqFun selSorter 1 (setFirst fun i => ⟨i / (i + 1), 0⟩) l a a' ∧
    a'.pop.Perm (a.pop.take 1 ++ [(setFirst (fun i => ⟨i / (i + 1), 0⟩) 1 (a.pop.getD 0 [])).1, (setFirst (fun i => ⟨i / (i + 1), 0⟩) 2 (a.pop.getD 0 [])).1] ++ [c]) := by
  have hμ := setFirst_ok (Dom := fun _ => True) (f := fun i => ⟨i / (i + 1), 0⟩) (fun _ => trivial) 2
  obtain ⟨a, h⟩ := quad_setting.exec_exists sq_positive hμ n
  obtain ⟨h1, h2⟩ := quad_setting.posExec sq_positive h
  obtain ⟨l, a', hs⟩ := (c47_modified_step_completes quad_setting).2 n a _ h1 h2 hμ
  obtain ⟨⟨rest, hr, hp⟩, -⟩ := c101_modified_partial quad_setting h1 h2 hμ hs
  obtain ⟨c, rfl⟩ := List.length_eq_one_iff.mp hr
  exact ⟨a, l, a', c, h1, hs, hp⟩

/-- C101, `DefaultAlgorithm`: the conditions hold for a 6 x 5 image and the first step. -/
example : ∃ a s a' s' ms, DefaultExec ieee someSorter 0 (fun _ _ => ⟨[], [], fun _ _ => [], fun _ => []⟩) counter
    ⟨6, 5, fun x y => (min 65535 (8191 * x), min 65535 (13107 * y), 65535)⟩ 30 7 0 a s ∧
    DefaultExec ieee someSorter 0 (fun _ _ => ⟨[], [], fun _ _ => [], fun _ => []⟩) counter
      ⟨6, 5, fun x y => (min 65535 (8191 * x), min 65535 (13107 * y), 65535)⟩ 30 7 1 a' s' ∧ a'.pop.Perm (a.pop.take 5 ++ ms) := by
  obtain ⟨l, a, s, h⟩ := (c78_new_partial gradient_ok 7).mpr (by norm_num)
  obtain ⟨-, -, -, -, -, -, -, ⟨l, a', s', hs⟩, -⟩ := c78_default_partial gradient_ok (.new h)
  obtain ⟨ms, -, hp, -⟩ := c101_default_partial gradient_ok (.new h) hs
  exact ⟨a, s, a', s', ms, .new h, .step (.new h) hs, hp⟩

/-- C101, C102: the 400 members of the first generation for the 6 x 5 image, the same whenever the algorithm is constructed with the source in this state. -/
example : ∃ a s l, DefaultNew ieee someSorter 0 (fun _ _ => ⟨[], [], fun _ _ => [], fun _ => []⟩) counter
    ⟨6, 5, fun x y => (min 65535 (8191 * x), min 65535 (13107 * y), 65535)⟩ 30 7 l a s ∧ a.pop.Perm (draw counter 30 400 7).1 ∧
    ∀ b t l', DefaultNew ieee someSorter 0 (fun _ _ => ⟨[], [], fun _ _ => [], fun _ => []⟩) counter
      ⟨6, 5, fun x y => (min 65535 (8191 * x), min 65535 (13107 * y), 65535)⟩ 30 7 l' b t → a.pop = b.pop ∧ a.fit = b.fit ∧ s = t := by
  obtain ⟨l, a, s, h⟩ := (c78_new_partial gradient_ok 7).mpr (by norm_num)
  refine ⟨a, s, l, h, ?_, fun b t l' h' => ?_⟩
  · obtain ⟨gs, e, hp⟩ := c101_default_new_partial gradient_ok h
    rw [e]
    exact hp
  · obtain ⟨h1, h2, -, -, -, h3⟩ := c102_default_partial gradient_ok (.new h) (.new h')
    exact ⟨h1, h2, h3⟩

end Verif.Props

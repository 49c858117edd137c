import Verif.Alg.Exec

/-!
# Properties of the simple algorithm with the parallel evaluator (C42-C45, C47-C49)

An execution is `NewSimple` followed by any number of `Step`s, each with any mutator that records what it changes and under any
schedule of the worker goroutines.  The theorems named `_simple` hold for every fitness function that obeys `Laws`; those named
`_triangles_partial` are their instances for the triangle fitness function, where the number arithmetic has to meet `Arith` for
all histories (IEEE: images up to 4096 pixels a side).
-/

namespace Verif.Props

open Verif.Tri Verif.Spec Verif.Float Verif.Raster Verif.Fit Verif.Alg
open Verif.Incr hiding trunc step run Entry

/-! ### The triangle fitness function -/

/-- The conditions under which the algorithm runs on the triangle fitness function: arithmetic, an image with its block size, at most
32767 points a member, `1 ≤ cutoff ≤ size`, an exponent of the cache size, members with points in the unit square. -/
structure TriSetting (g : Geo) (fl : ℚ → ℚ) (I : Img) (bs N : Nat) (srt : Sorter) (cutoff : Nat) (init : List (List NP)) (k : Nat) : Prop where
  rnd : Rnd 53 fl
  arith : ∀ ops, Arith g fl I.w I.h ops
  img : I.OK
  bs1 : 1 ≤ bs
  bs2 : bs ≤ 16
  points : N ≤ 32767
  sort : SortOK srt
  exponent : 1 ≤ k
  cutoff1 : 1 ≤ cutoff
  cutoff2 : cutoff ≤ init.length
  init : ∀ p ∈ init, p.length = N ∧ ∀ q ∈ p, (0 ≤ q.x ∧ q.x ≤ 1) ∧ 0 ≤ q.y ∧ q.y ≤ 1

variable {g : Geo} {fl : ℚ → ℚ} {I : Img} {bs N : Nat} {srt : Sorter} {cutoff : Nat} {init : List (List NP)} {k : Nat}

theorem TriSetting.setting (S : TriSetting g fl I bs N srt cutoff init k) (z : ℚ) (bf : D → D → Bufs) :
    Setting (triFun g fl z I bs bf) (fun t => InImage I.w I.h t ∧ NonDegenerate t) Unit01 N (TriRepr g fl I N) srt cutoff init k :=
  ⟨tri_laws S.rnd S.arith S.img S.bs1 S.bs2 S.points, S.sort, S.exponent, S.cutoff1, S.cutoff2, S.init⟩

/-- IEEE arithmetic qualifies for images up to 4096 pixels a side. -/
theorem tri_setting_ieee {w h : Nat} (hs : SizeOk w h) (hw : side w h ≤ 4096) (px : Nat → Nat → Fin 256 × Fin 256 × Fin 256) (b1 : 1 ≤ bs) (b2 : bs ≤ 16) (hN : N ≤ 32767)
    (hsrt : SortOK srt) (hk : 1 ≤ k) (c1 : 1 ≤ cutoff) (c2 : cutoff ≤ init.length)
    (hi : ∀ p ∈ init, p.length = N ∧ ∀ q ∈ p, (0 ≤ q.x ∧ q.x ≤ 1) ∧ 0 ≤ q.y ∧ q.y ≤ 1) :
    TriSetting (gridGeo ieee w h) (rne 53) (ofBytes (rne 53) w h px) bs N srt cutoff init k :=
  ⟨rne_rnd (by norm_num), fun _ => arith_ieee hs hw, ofBytes_ok (rne_rnd (by norm_num)) w h px, b1, b2, hN, hsrt, hk, c1, c2, hi⟩

/-- A member moves its first point to (1/3, 1/4) and records it. -/
def moveFirst : Mutator := fun _ ps =>
  match ps with
  | [] => ([], [])
  | p :: ps => (⟨1 / 3, 1 / 4⟩ :: ps, [⟨p, ⟨1 / 3, 1 / 4⟩, 0⟩])

theorem moveFirst_ok (N : Nat) : MutOK Unit01 N moveFirst := by
  intro i ps _ _
  cases ps with
  | nil => exact Mutates.refl _ _
  | cons p ps =>
    refine ⟨rfl, by simp [moveFirst], by simp [moveFirst], by simp [moveFirst], ?_, ?_⟩
    · intro j hj
      cases j with
      | zero => exact absurd rfl (hj _ (by simp [moveFirst]; rfl))
      | succ j => rfl
    · intro m hm
      simp only [moveFirst, List.mem_singleton] at hm
      subst hm
      unfold Unit01
      norm_num

/-- Three members with three points each. -/
def trio : List (List NP) :=
  [[⟨0, 0⟩, ⟨1, 0⟩, ⟨1 / 2, 1⟩], [⟨0, 0⟩, ⟨1, 1⟩, ⟨1 / 2, 1 / 2⟩], [⟨1 / 8, 3 / 4⟩, ⟨1, 1⟩, ⟨1, 1⟩]]

/-- The conditions are met: a 40 x 30 image under IEEE arithmetic, three members, cutoff 1. -/
theorem trio_setting : TriSetting (gridGeo ieee 40 30) (rne 53) (checker (rne 53) 40 30) 5 3 someSorter 1 trio 22 := by
  refine tri_setting_ieee ⟨by norm_num, by norm_num, by norm_num, by norm_num, by norm_num⟩ (by decide) _ (by norm_num) (by norm_num) (by norm_num)
    someSorter_ok (by norm_num) le_rfl (by decide) ?_
  decide +kernel

section
variable {Dt K : Type} {F : Fun Dt K} {ok : K → Prop} {Dom : NP → Prop} {Repr : Dt → List NP → Prop}

/-! ### C42 -/

/-- **C42**, simple algorithm: a step never lowers the best fitness. -/
theorem c42_simple (S : Setting F ok Dom N Repr srt cutoff init k) {n : Nat} {a a' : Algo Dt K} {μ : Mutator} {l : List Who}
    (h : SimpleExec F srt cutoff (MutOK Dom N) init k n a) (hμ : MutOK Dom N μ) (hs : SimpleStep F srt cutoff μ l a a') :
    a.bestFit ≤ a'.bestFit := by
  obtain ⟨J, h1, _⟩ := S.exec h
  exact (J.step S.laws S.sort hμ S.cutoff1 (by rw [h1]; exact S.cutoff2) hs).2.2.2.1

/-! ### C43 -/

/-- **C43**, simple algorithm: the best points are those of member 0, the best fitness is its fitness, all members are evaluated, and no
fitness is higher. -/
theorem c43_simple (S : Setting F ok Dom N Repr srt cutoff init k) {n : Nat} {a : Algo Dt K}
    (h : SimpleExec F srt cutoff (MutOK Dom N) init k n a) :
    a.pop[0]? = some a.best ∧ a.fit[0]? = some a.bestFit ∧ a.fit.length = a.pop.length ∧ ∀ v ∈ a.fit, v ≤ a.bestFit := by
  obtain ⟨J, _, _⟩ := S.exec h
  exact ⟨J.best, J.bestFit, J.shape.lenF, fun v hv => sorted_head J.sorted J.bestFit v hv⟩

/-! ### C44 -/

/-- **C44**, simple algorithm: the generation counts the steps; the numbers of members and of points are unchanged, and so is the domain
of the points. -/
theorem c44_simple (S : Setting F ok Dom N Repr srt cutoff init k) {n : Nat} {a : Algo Dt K}
    (h : SimpleExec F srt cutoff (MutOK Dom N) init k n a) :
    a.gen = n ∧ a.pop.length = init.length ∧ ∀ p ∈ a.pop, p.length = N ∧ ∀ q ∈ p, Dom q := by
  obtain ⟨J, h1, h2⟩ := S.exec h
  exact ⟨h2, h1, J.shape.pop⟩

/-! ### C45 -/

/-- **C45**, simple algorithm: two executions with the same mutators and different schedules, in all steps and in the construction, end
with the same members, fitnesses, best points, best fitness, generation, order of evaluators and triangulations. -/
theorem c45_simple (S : Setting F ok Dom N Repr srt cutoff init k) {μs : List Mutator} (hM : ∀ μ ∈ μs, MutOK Dom N μ) {a b : Algo Dt K}
    (h : SimpleTrace F srt cutoff init k μs a) (h' : SimpleTrace F srt cutoff init k μs b) :
    a.pop = b.pop ∧ a.fit = b.fit ∧ a.best = b.best ∧ a.bestFit = b.bestFit ∧ a.gen = b.gen ∧ a.sys.slots = b.sys.slots ∧
      ∀ id, (a.sys.fns id).tri = (b.sys.fns id).tri := by
  have s := S.trace_sim hM h h'
  exact ⟨s.pop, s.fit, s.best, s.bestFit, s.gen, s.sys.slots, s.sys.tri⟩

/-! ### C47 -/

/-- **C47**, simple algorithm.  In every state of every evaluation (in the constructor and in all steps): no goroutine panics; the
channel never holds more than its capacity, so that no send blocks; as long as the collector has not finished, some goroutine
can move; schedules have bounded length; and when the collector has closed the channel it has received exactly one result
per member and no goroutine is left that could send. -/
theorem c47_simple (S : Setting F ok Dom N Repr srt cutoff init k) {b : Algo Dt K} (hb : EvalStart F srt cutoff (MutOK Dom N) init k b) :
    ∃ bound, ∀ l p, Run F b.pop.length (ptsOf b) (mutsOf b) (Ph.start b.sys) l p →
      (∀ w, Enabled b.pop.length p w → (move F b.pop.length (ptsOf b) (mutsOf b) p w).isSome) ∧
      p.chan.length ≤ b.pop.length ∧
      (¬ p.Finished b.pop.length → ∃ w, Enabled b.pop.length p w) ∧
      l.length ≤ bound ∧
      (p.Finished b.pop.length → (p.arr.map Prod.fst).Perm (List.range b.pop.length) ∧ p.chan = [] ∧ ∀ w, ¬ Enabled b.pop.length p w) := by
  obtain ⟨Sh, _, T, V, H, hr⟩ := S.phase hb
  refine ⟨left F b.pop.length T (Ph.start b.sys), fun l p h => ?_⟩
  obtain ⟨ch, ar, J⟩ := (PInv.start H).run H h
  refine ⟨fun w hw => ?_, ?_, J.progress Sh.pos, ?_, fun hf => ?_⟩
  · obtain ⟨q, _, _, hq, _⟩ := J.move H hw
    rw [hq]; rfl
  · rw [J.chan, List.length_map]
    have := (List.subperm_of_subset J.chN (l₂ := List.range b.pop.length) (fun i hi => by
      obtain ⟨id, e⟩ := (J.chT i).mp hi
      exact List.mem_range.mpr (J.lt (by rw [e]; simp)))).length_le
    simpa using this
  · have := PInv.bounded H Sh.pos h (PInv.start H)
    omega
  · have D := J.done hf
    obtain ⟨ar', h1, h2⟩ := D.arr
    refine ⟨?_, D.chan, D.quiet⟩
    rw [h2, List.map_map]
    simpa [Function.comp_def] using h1

/-- Without tasks the collector waits for ever: with `n = 0` no run finishes, and after the first two moves nothing can move. -/
theorem c47_no_task_deadlock (s : Sys Dt K) (pts : Nat → List NP) (muts : Nat → List Mut) :
    (∀ l p, Run F 0 pts muts (Ph.start s) l p → ¬ p.Finished 0) ∧
      ∃ p, Run F 0 pts muts (Ph.start s) [.main] p ∧ ∀ w, ¬ Enabled 0 p w := by
  refine ⟨fun l p _ h => absurd h.2 (by omega), ⟨prepare s, .recv 0, fun _ => .idle, [], []⟩, ?_, ?_⟩
  · exact Run.snoc (l := []) .main (Run.nil _) trivial rfl
  · intro w
    cases w <;> simp [Enabled]

/-- Every execution can be continued by a step with any mutator: some schedule completes it. -/
theorem c47_step_completes (S : Setting F ok Dom N Repr srt cutoff init k) :
    (∃ l, ∃ a : Algo Dt K, NewSimple F srt init k l a) ∧
      ∀ n a μ, SimpleExec F srt cutoff (MutOK Dom N) init k n a → MutOK Dom N μ → ∃ l a', SimpleStep F srt cutoff μ l a a' :=
  ⟨S.new_exists, fun _ _ _ h hμ => S.step_exists h hμ⟩

/-! ### C48 -/

/-- **C48**, simple algorithm: in no state of any evaluation can two goroutines access the same memory location at once, one of them
writing it.  The memory a move accesses is `reads` and `writes`, which `writes_sound` and `reads_sound` justify. -/
theorem c48_simple (S : Setting F ok Dom N Repr srt cutoff init k) {b : Algo Dt K} (hb : EvalStart F srt cutoff (MutOK Dom N) init k b)
    {l : List Who} {p : Ph Dt K} (h : Run F b.pop.length (ptsOf b) (mutsOf b) (Ph.start b.sys) l p) :
    ¬ ∃ w w', w ≠ w' ∧ Enabled b.pop.length p w ∧ Enabled b.pop.length p w' ∧
      ∃ x ∈ writes b.pop.length p w, x ∈ reads F b.pop.length p w' ∨ x ∈ writes b.pop.length p w' := by
  obtain ⟨_, _, T, V, H, _⟩ := S.phase hb
  obtain ⟨ch, ar, J⟩ := (PInv.start H).run H h
  exact J.noRace H

/-- The footprints are sound: a move changes only locations in `writes`. -/
theorem c48_writes {n : Nat} {pts : Nat → List NP} {muts : Nat → List Mut} {p q : Ph Dt K} {w : Who} (h : move F n pts muts p w = some q) :
    ∀ x, x ∉ writes n p w → AgreeAt q p x := writes_sound h

/-- The footprints are sound: what a move does depends on the locations in `reads` only (and on the goroutines' own variables). -/
theorem c48_reads {n : Nat} {pts : Nat → List NP} {muts : Nat → List Mut} {p p' q : Ph Dt K} {w : Who} (h : move F n pts muts p w = some q)
    (h1 : p'.pc = p.pc) (h2 : p'.tasks = p.tasks) (h3 : p'.chan = p.chan) (h4 : p'.arr = p.arr) (h5 : p'.sys.k = p.sys.k)
    (ha : ∀ x ∈ reads F n p w, AgreeAt p p' x) :
    ∃ q', move F n pts muts p' w = some q' ∧ q'.pc = q.pc ∧ q'.tasks = q.tasks ∧ q'.chan = q.chan ∧ q'.arr = q.arr ∧
      ∀ x ∈ writes n p w, AgreeAt q q' x := reads_sound h h1 h2 h3 h4 h5 ha

/-! ### C49 -/

/-- **C49**, simple algorithm: the evaluator of member `i` holds a triangulation that represents the points of member `i`, and the fitness
of member `i` is that of this triangulation. -/
theorem c49_simple (S : Setting F ok Dom N Repr srt cutoff init k) {n : Nat} {a : Algo Dt K}
    (h : SimpleExec F srt cutoff (MutOK Dom N) init k n a) {i : Nat} {ps : List NP} (hi : a.pop[i]? = some ps) :
    ∃ id d v, a.sys.slots[i]? = some id ∧ (a.sys.fns id).tri = some d ∧ Repr d ps ∧ a.fit[i]? = some v ∧ plain F d = some v := by
  obtain ⟨J, _, _⟩ := S.exec h
  have hx := (List.getElem?_eq_some_iff.mp hi).1
  obtain ⟨p, v, h1, h2, d, h3, _, _, h4, h5⟩ := J.shape.evalAt J.members i hx
  rw [hi] at h1
  cases h1
  exact ⟨_, d, v, slots_idAt (by rw [J.shape.lenS]; exact hx), h3, h4, h2, h5⟩

end

/-! ### The triangle fitness function -/

section
variable {z : ℚ} {bf : D → D → Bufs}

/-- **C42** for triangles (partial: under `Arith`). -/
theorem c42_triangles_partial (S : TriSetting g fl I bs N srt cutoff init k) {n : Nat} {a a' : Algo D Tri} {μ : Mutator} {l : List Who}
    (h : SimpleExec (triFun g fl z I bs bf) srt cutoff (MutOK Unit01 N) init k n a) (hμ : MutOK Unit01 N μ)
    (hs : SimpleStep (triFun g fl z I bs bf) srt cutoff μ l a a') : a.bestFit ≤ a'.bestFit :=
  c42_simple (S.setting z bf) h hμ hs

/-- **C43** for triangles (partial: under `Arith`). -/
theorem c43_triangles_partial (S : TriSetting g fl I bs N srt cutoff init k) {n : Nat} {a : Algo D Tri}
    (h : SimpleExec (triFun g fl z I bs bf) srt cutoff (MutOK Unit01 N) init k n a) :
    a.pop[0]? = some a.best ∧ a.fit[0]? = some a.bestFit ∧ a.fit.length = a.pop.length ∧ ∀ v ∈ a.fit, v ≤ a.bestFit :=
  c43_simple (S.setting z bf) h

/-- **C44** for triangles (partial: under `Arith`). -/
theorem c44_triangles_partial (S : TriSetting g fl I bs N srt cutoff init k) {n : Nat} {a : Algo D Tri}
    (h : SimpleExec (triFun g fl z I bs bf) srt cutoff (MutOK Unit01 N) init k n a) :
    a.gen = n ∧ a.pop.length = init.length ∧ ∀ p ∈ a.pop, p.length = N ∧ ∀ q ∈ p, Unit01 q :=
  c44_simple (S.setting z bf) h

/-- **C45** for triangles (partial: under `Arith`). -/
theorem c45_triangles_partial (S : TriSetting g fl I bs N srt cutoff init k) {μs : List Mutator} (hM : ∀ μ ∈ μs, MutOK Unit01 N μ) {a b : Algo D Tri}
    (h : SimpleTrace (triFun g fl z I bs bf) srt cutoff init k μs a) (h' : SimpleTrace (triFun g fl z I bs bf) srt cutoff init k μs b) :
    a.pop = b.pop ∧ a.fit = b.fit ∧ a.best = b.best ∧ a.bestFit = b.bestFit ∧ a.gen = b.gen ∧ a.sys.slots = b.sys.slots ∧
      ∀ id, (a.sys.fns id).tri = (b.sys.fns id).tri :=
  c45_simple (S.setting z bf) hM h h'

/-- **C47** for triangles (partial: under `Arith`). -/
theorem c47_triangles_partial (S : TriSetting g fl I bs N srt cutoff init k) {b : Algo D Tri}
    (hb : EvalStart (triFun g fl z I bs bf) srt cutoff (MutOK Unit01 N) init k b) :
    ∃ bound, ∀ l p, Run (triFun g fl z I bs bf) b.pop.length (ptsOf b) (mutsOf b) (Ph.start b.sys) l p →
      (∀ w, Enabled b.pop.length p w → (move (triFun g fl z I bs bf) b.pop.length (ptsOf b) (mutsOf b) p w).isSome) ∧
      p.chan.length ≤ b.pop.length ∧
      (¬ p.Finished b.pop.length → ∃ w, Enabled b.pop.length p w) ∧
      l.length ≤ bound ∧
      (p.Finished b.pop.length → (p.arr.map Prod.fst).Perm (List.range b.pop.length) ∧ p.chan = [] ∧ ∀ w, ¬ Enabled b.pop.length p w) :=
  c47_simple (S.setting z bf) hb

/-- **C48** for triangles (partial: under `Arith`). -/
theorem c48_triangles_partial (S : TriSetting g fl I bs N srt cutoff init k) {b : Algo D Tri}
    (hb : EvalStart (triFun g fl z I bs bf) srt cutoff (MutOK Unit01 N) init k b) {l : List Who} {p : Ph D Tri}
    (h : Run (triFun g fl z I bs bf) b.pop.length (ptsOf b) (mutsOf b) (Ph.start b.sys) l p) :
    ¬ ∃ w w', w ≠ w' ∧ Enabled b.pop.length p w ∧ Enabled b.pop.length p w' ∧
      ∃ x ∈ writes b.pop.length p w, x ∈ reads (triFun g fl z I bs bf) b.pop.length p w' ∨ x ∈ writes b.pop.length p w' :=
  c48_simple (S.setting z bf) hb h

/-- **C49** for triangles (partial: under `Arith`): the triangulation held by the evaluator of member `i` is that of a history of calls
that leaves exactly the points of member `i`; each of these points is found in it and can be removed; the fitness of
member `i` is the one computed from it without caches. -/
theorem c49_triangles_partial (S : TriSetting g fl I bs N srt cutoff init k) {n : Nat} {a : Algo D Tri}
    (h : SimpleExec (triFun g fl z I bs bf) srt cutoff (MutOK Unit01 N) init k n a) {i : Nat} {ps : List NP} (hi : a.pop[i]? = some ps) :
    ∃ id d v, a.sys.slots[i]? = some id ∧ (a.sys.fns id).tri = some d ∧ a.fit[i]? = some v ∧
      evalTris fl z I bs (iterTriangles d) = some v ∧
      (∃ ops m d0, Hist I.w I.h ops ↑(pix fl I ps) m ∧ exec g fl I.w I.h ops = some d0 ∧ iterTriangles d = iterTriangles d0) ∧
      ∀ p ∈ ps, hasPoint g d (createPoint fl p I.w I.h) = some true ∧ (remove g fl d (createPoint fl p I.w I.h)).isSome := by
  obtain ⟨id, d, v, h1, h2, ⟨hu, hl, ops, m, d0, H, e, hs⟩, h4, h5⟩ := c49_simple (S.setting z bf) h hi
  refine ⟨id, d, v, h1, h2, h4, by rw [← plain_tri]; exact h5, ⟨ops, m, d0, H, e, ?_⟩, ?_⟩
  · have it : ∀ x : D, iterTriangles x = iterTriangles (strip x) := fun _ => rfl
    rw [it, hs, ← it]
  · intro p hp
    have hpx : createPoint fl p I.w I.h ∈ (↑(pix fl I ps) : Multiset Pt) := List.mem_map.mpr ⟨p, hp, rfl⟩
    have J := ((S.arith ops).inv H e).1
    have hin := J.img _ hpx
    constructor
    · rw [← hasPoint_strip, hs, hasPoint_strip, J.hasPoint_spec (S.arith ops).size (S.arith ops).geo H.inserted hin]
      exact congrArg some (decide_eq_true hpx)
    · obtain ⟨d1, e1⟩ := c06_c07_run_ok_partial (S.arith _) (Hist.rem _ H hpx)
      rw [exec_snoc, e] at e1
      have e2 := step_strip g fl d (.rem (createPoint fl p I.w I.h))
      have e3 := step_strip g fl d0 (.rem (createPoint fl p I.w I.h))
      have e4 : Incr.step g fl d0 (.rem (createPoint fl p I.w I.h)) = some d1 := e1
      rw [hs, e3, e4] at e2
      show (Incr.step g fl d (.rem (createPoint fl p I.w I.h))).isSome
      cases hx : Incr.step g fl d (.rem (createPoint fl p I.w I.h)) with
      | none => rw [hx] at e2; cases e2
      | some _ => rfl

end

/-! ### The theorems apply

Executions of the 40 x 30 case of any length exist, so that the hypotheses of all theorems above can be met. -/

/-- The fitness function of the examples. -/
def trioFun : Fun D Tri := triFun (gridGeo ieee 40 30) (rne 53) 0 (checker (rne 53) 40 30) 5 (fun _ _ => ⟨[], [], fun _ _ => [], fun _ => []⟩)

theorem trio_exec (n : Nat) : ∃ a, SimpleExec trioFun someSorter 1 (MutOK Unit01 3) trio 22 n a :=
  (trio_setting.setting _ _).exec_exists (moveFirst_ok 3) n

/-- C42, C43, C44: seven steps and one more. -/
example : ∃ a a' l, SimpleExec trioFun someSorter 1 (MutOK Unit01 3) trio 22 7 a ∧ SimpleStep trioFun someSorter 1 moveFirst l a a' ∧
    a.bestFit ≤ a'.bestFit ∧ a.gen = 7 ∧ a.pop.length = 3 ∧ ∀ v ∈ a.fit, v ≤ a.bestFit := by
  obtain ⟨a, h⟩ := trio_exec 7
  obtain ⟨l, a', hs⟩ := (c47_step_completes (trio_setting.setting _ _)).2 7 a moveFirst h (moveFirst_ok 3)
  have h4 := c44_triangles_partial trio_setting h
  exact ⟨a, a', l, h, hs, c42_triangles_partial trio_setting h (moveFirst_ok 3) hs, h4.1, h4.2.1, (c43_triangles_partial trio_setting h).2.2.2⟩

/-- C45: a trace of one step. -/
example : ∃ a, SimpleTrace trioFun someSorter 1 trio 22 [moveFirst] a := by
  obtain ⟨l, a, h⟩ := (c47_step_completes (trio_setting.setting _ _)).1
  obtain ⟨l', a', hs⟩ := (c47_step_completes (trio_setting.setting _ _)).2 0 a moveFirst (.new h) (moveFirst_ok 3)
  exact ⟨a', SimpleTrace.step (μs := []) (.new h) hs⟩

/-- C47, C48: an evaluation inside the eighth step, finished. -/
example : ∃ b l p, EvalStart trioFun someSorter 1 (MutOK Unit01 3) trio 22 b ∧ b.gen = 7 ∧
    Run trioFun b.pop.length (ptsOf b) (mutsOf b) (Ph.start b.sys) l p ∧ p.Finished b.pop.length ∧ ¬ Race trioFun b.pop.length p := by
  obtain ⟨a, h⟩ := trio_exec 7
  obtain ⟨l, a', b, q, c, h1, h2, h3, h4, h5⟩ := (c47_step_completes (trio_setting.setting _ _)).2 7 a moveFirst h (moveFirst_ok 3)
  have hb : EvalStart trioFun someSorter 1 (MutOK Unit01 3) trio 22 b := Or.inr ⟨7, a, moveFirst, h, moveFirst_ok 3, h1⟩
  refine ⟨b, l, q, hb, ?_, h2, h3, c48_triangles_partial trio_setting hb h2⟩
  have : b.gen = a.gen := by
    unfold newGeneration at h1
    simp only [Option.bind_eq_bind, Option.bind_eq_some_iff] at h1
    obtain ⟨_, _, _, _, h⟩ := h1
    cases h
    rfl
  rw [this, (c44_triangles_partial trio_setting h).1]

/-- C49: the first member after seven steps. -/
example : ∃ a ps, SimpleExec trioFun someSorter 1 (MutOK Unit01 3) trio 22 7 a ∧ a.pop[0]? = some ps ∧ ps.length = 3 := by
  obtain ⟨a, h⟩ := trio_exec 7
  have h4 := c44_triangles_partial trio_setting h
  have h0 : 0 < a.pop.length := by rw [h4.2.1]; decide
  exact ⟨a, a.pop[0], h, List.getElem?_eq_getElem h0, (h4.2.2 _ (List.getElem_mem h0)).1⟩

end Verif.Props

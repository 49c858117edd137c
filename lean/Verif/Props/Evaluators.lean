import Verif.Alg.Evaluators
import Verif.Props.Cache
import Verif.Props.Simple

/-!
# Properties of the simple algorithm with the generic evaluators (C82)

`NewOne` and `NewMany` do nothing in `SetBase`, `Swap`, `Prepare` and `Update`.  A caching fitness function evaluates new points only
when it has no triangulation or has a base, so with these evaluators it evaluates the points of its first call for ever.
-/

namespace Verif.Props

open Verif.Tri Verif.Spec Verif.Float Verif.Raster Verif.Fit Verif.Alg
open Verif.Incr hiding trunc step run Entry

section
variable {Dt K : Type} {F : Fun Dt K} {ok : K → Prop} {Dom : NP → Prop} {N : Nat} {Repr : Dt → List NP → Prop}
variable {srt : Sorter} {cutoff : Nat} {M : Mutator → Prop} {init : List (List NP)}

/-- The fitness a new function computes for points. -/
def freshFit (F : Fun Dt K) (ps : List NP) : Option ℚ := (F.new.bind fun d => insAll F d ps).bind (plain F)

/-- The condition of the theorems about `many`: a lawful function, a sorter, at least one member, all members in the domain. -/
structure ManySetting (F : Fun Dt K) (ok : K → Prop) (Dom : NP → Prop) (N : Nat) (Repr : Dt → List NP → Prop) (srt : Sorter)
    (init : List (List NP)) : Prop where
  laws : Laws F ok Dom N Repr
  sort : SortOK srt
  pos : 0 < init.length
  init : ∀ p ∈ init, p.length = N ∧ ∀ q ∈ p, Dom q

theorem ManySetting.first (S : ManySetting F ok Dom N Repr srt init) : ∃ (T : Nat → Dt) (V : Nat → ℚ), ManyOK F ok init.length T V ∧
    (∀ i < init.length, (F.new.bind fun d0 => insAll F d0 (init.getD i [])) = some (T i)) ∧
    ∀ (i : Nat) p, init[i]? = some p → freshFit F p = some (V i) := by
  have key : ∀ p ∈ init, ∃ (d : Dt) (v : ℚ), (F.new.bind fun d0 => insAll F d0 p) = some d ∧ (∀ key ∈ F.keys d, ok key) ∧ plain F d = some v := by
    intro p hp
    obtain ⟨h1, h2⟩ := S.init p hp
    obtain ⟨d0, d, e1, e2, r⟩ := S.laws.build p h1 h2
    obtain ⟨v, hv⟩ := S.laws.plain r
    exact ⟨d, v, by rw [e1]; exact e2, fun k hk => (S.laws.key d p r k hk).1, hv⟩
  obtain ⟨d0, -⟩ := key _ (List.getElem_mem S.pos)
  have : Nonempty Dt := ⟨d0⟩
  choose! T V h1 h2 h3 using key
  have hm : ∀ i < init.length, init.getD i [] ∈ init := by
    intro i hi
    simp [List.getD_eq_getElem?_getD, hi]
  refine ⟨fun i => T (init.getD i []), fun i => V (init.getD i []), ⟨S.laws.same, fun i hi => h2 _ (hm i hi), fun i hi => h3 _ (hm i hi)⟩,
    fun i hi => h1 _ (hm i hi), ?_⟩
  intro i p hp
  have e : init.getD i [] = p := by rw [List.getD_eq_getElem?_getD, hp]; rfl
  simp only [e]
  unfold freshFit
  have hp' := List.mem_of_getElem? hp
  rw [h1 p hp']
  exact h3 p hp'

/-- **C82**, `NewMany`.  The fitnesses the algorithm works with are, in every generation, those of the initial members: neither they nor
the reported best fitness depend on the mutator, the schedule or the number of steps. -/
theorem c82_many (S : ManySetting F ok Dom N Repr srt init) {g : Nat} {a : Algo Dt K}
    (h : EvExec Ev.generic F srt cutoff M init (newMany init.length) g a) :
    a.gen = g ∧ a.pop.length = init.length ∧ a.fit.Pairwise (· ≥ ·) ∧ (∃ p ∈ init, freshFit F p = some a.bestFit) ∧
    (∀ p ∈ init, ∃ v, freshFit F p = some v ∧ v ≤ a.bestFit) ∧ (a.fit.map some).Perm (init.map (freshFit F)) := by
  obtain ⟨T, V, H, hb, hV⟩ := S.first
  obtain ⟨L, hL, hsort⟩ := S.sort ((List.range init.length).map V)
  obtain ⟨I, hg⟩ := many_exec H hb hL h
  have hp := swaps_perm _ hL
  have hmap : init.map (freshFit F) = ((List.range init.length).map V).map some := by
    apply List.ext_getElem?
    intro i
    by_cases hi : i < init.length
    · have e := hV i _ (List.getElem?_eq_getElem hi)
      simp [hi, e]
    · rw [List.getElem?_eq_none (by simpa using hi), List.getElem?_eq_none (by simpa using hi)]
  have hperm : (a.fit.map some).Perm (init.map (freshFit F)) := by rw [hmap, I.fit]; exact hp.map some
  have hbest : a.bestFit ∈ a.fit := by rw [I.fit]; exact List.mem_of_getElem? I.best
  refine ⟨hg, I.pop, by rw [I.fit]; exact hsort, ?_, ?_, hperm⟩
  · obtain ⟨p, hp, e⟩ := List.mem_map.mp (hperm.mem_iff.mp (List.mem_map_of_mem (f := some) hbest))
    exact ⟨p, hp, e⟩
  · intro p hp
    obtain ⟨v, hv, e⟩ := List.mem_map.mp (hperm.mem_iff.mpr (List.mem_map_of_mem (f := freshFit F) hp))
    refine ⟨v, e.symm, sorted_head (by rw [I.fit]; exact hsort) (by rw [I.fit]; exact I.best) v hv⟩

/-- **C82**, `NewMany`: two executions from the same members report the same fitnesses at all times, whatever happened. -/
theorem c82_many_constant (S : ManySetting F ok Dom N Repr srt init) {g g' cutoff' : Nat} {M' : Mutator → Prop} {a a' : Algo Dt K}
    (h : EvExec Ev.generic F srt cutoff M init (newMany init.length) g a)
    (h' : EvExec Ev.generic F srt cutoff' M' init (newMany init.length) g' a') : a.fit = a'.fit ∧ a.bestFit = a'.bestFit := by
  obtain ⟨T, V, H, hb, hV⟩ := S.first
  obtain ⟨L, hL, hsort⟩ := S.sort ((List.range init.length).map V)
  obtain ⟨I, -⟩ := many_exec H hb hL h
  obtain ⟨I', -⟩ := many_exec H hb hL h'
  refine ⟨by rw [I.fit, I'.fit], ?_⟩
  have := I.best
  rw [I'.best] at this
  exact (Option.some.inj this).symm

/-- **C82**, `NewOne`: called one after the other, every later `Calculate`, for any member, points and mutations, evaluates the points of
the first call. -/
theorem c82_one {n : Nat} (S : SameOK F ok) (hok : ∀ d, ∀ key ∈ F.keys d, ok key) {i : Nat} {ps : List NP} {ms : List Mut} {v : ℚ} {s : Sys Dt K}
    (h : calculate F (newOne n) i ps ms = some (v, s)) :
    freshFit F ps = some v ∧ ∀ (cs : List (Nat × List NP × List Mut)) (s' : Sys Dt K) (vs : List ℚ),
      cs.foldlM (fun (x : List ℚ × Sys Dt K) c => (calculate F x.2 c.1 c.2.1 c.2.2).map fun y => (x.1 ++ [y.1], y.2)) ([], s) = some (vs, s') →
      ∀ u ∈ vs, u = v := by
  have first : ∀ id, (newOne (Dt := Dt) (K := K) n).slots[i]? = some id → id = 0 := by
    intro id hid
    have := List.mem_of_getElem? hid
    simp only [newOne] at this
    exact (List.mem_replicate.mp this).2
  unfold calculate at h
  simp only [Option.bind_eq_bind, Option.bind_eq_some_iff] at h
  obtain ⟨id, hid, d, hd, x, hx, h⟩ := h
  have := first id hid
  subst this
  simp only [Option.some.injEq, Prod.mk.injEq] at h
  obtain ⟨hv, hs⟩ := h
  have hd' : (F.new.bind fun d0 => insAll F d0 ps) = some d := by rw [← hd]; rfl
  obtain ⟨⟨l, hl, e1⟩, e2⟩ := keyLoop_valid S (F.keys d) [] [] ⟨fun b hb => by simp [newOne] at hb, fun hb => by simp [newOne] at hb, by simp⟩ (hok d) x hx
  have hplain : plain F d = some v := by
    unfold plain
    rw [hl, ← hv, e1]
    simp
  refine ⟨by unfold freshFit; rw [hd']; exact hplain, ?_⟩
  intro cs s' vs hcs
  have inv : ∀ (cs : List (Nat × List NP × List Mut)) (y z : List ℚ × Sys Dt K), (∀ u ∈ y.1, u = v) → y.2.slots = List.replicate n 0 →
      Kept F ok d (y.2.fns 0) →
      cs.foldlM (fun (x : List ℚ × Sys Dt K) c => (calculate F x.2 c.1 c.2.1 c.2.2).map fun y => (x.1 ++ [y.1], y.2)) y = some z → ∀ u ∈ z.1, u = v := by
    intro cs
    induction cs with
    | nil =>
      intro y z h1 _ _ hz
      cases hz
      exact h1
    | cons c cs ih =>
      intro y z h1 h2 h3 hz
      rw [List.foldlM_cons] at hz
      simp only [Option.bind_eq_bind, Option.bind_eq_some_iff, Option.map_eq_some_iff] at hz
      obtain ⟨w, ⟨u, hu, rfl⟩, hz⟩ := hz
      unfold calculate at hu
      simp only [Option.bind_eq_bind, Option.bind_eq_some_iff] at hu
      obtain ⟨id, hid, d', hd', x, hx, hu⟩ := hu
      have h0 : id = 0 := by
        rw [h2] at hid
        exact (List.mem_replicate.mp (List.mem_of_getElem? hid)).2
      subst h0
      obtain ⟨k1, k2, k3, k4⟩ := h3
      unfold setup at hd'
      rw [k1, k2] at hd'
      simp only [Option.some.injEq] at hd'
      subst hd'
      obtain ⟨⟨l, hl, e1⟩, e2⟩ := keyLoop_valid S (F.keys d) [] []
        ⟨fun b hb => absurd (k3.symm.trans hb) (by simp), fun _ => k4, by simp⟩ (hok d) x hx
      simp only [Option.some.injEq] at hu
      subst hu
      refine ih (y.1 ++ [F.fin x.2], setFn y.2 0 ⟨some d, none, .own, x.1⟩) z ?_ h2 ⟨by simp [setFn], by simp [setFn], by simp [setFn], by simpa [setFn] using e2⟩ hz
      intro u hu
      rcases List.mem_append.mp hu with h | h
      · exact h1 u h
      · simp only [List.mem_singleton] at h
        rw [h, e1]
        unfold plain at hplain
        rw [hl] at hplain
        simpa using hplain
  refine inv cs ([], s) (vs, s') (by simp) (by rw [← hs]; rfl) ?_ hcs
  rw [← hs]
  exact ⟨by simp [setFn], by simp [setFn], by simp [setFn], by simpa [setFn] using e2⟩

/-- **C82**, `NewOne` with at least two members: the algorithm reaches a state in which two goroutines are about to write the same memory. -/
theorem c82_one_race {n : Nat} (hn : 2 ≤ n) (pts : Nat → List NP) (muts : Nat → List Mut) :
    ∃ l p, EvRun Ev.generic F n pts muts (Ph.start (newOne n)) l p ∧ Race F n p := by
  have g0 : (List.replicate n 0)[0]? = some 0 := by simp [List.getElem?_replicate]; omega
  have g1 : (List.replicate n 0)[1]? = some 0 := by simp [List.getElem?_replicate]; omega
  have h1 : evMove Ev.generic F n pts muts (Ph.start (newOne n)) .main =
      some ⟨newOne n, .sub 1, setTask (fun _ => .idle) 0 (.ready 0), [], []⟩ := by
    unfold evMove Ph.start newOne
    simp only
    rw [if_pos (by omega), g0]
    rfl
  have h2 : evMove Ev.generic F n pts muts ⟨newOne n, .sub 1, setTask (fun _ => .idle) 0 (.ready 0), [], []⟩ .main =
      some ⟨newOne n, .sub 2, setTask (setTask (fun _ => .idle) 0 (.ready 0)) 1 (.ready 0), [], []⟩ := by
    unfold evMove newOne
    simp only
    rw [if_pos (by omega), g1]
    rfl
  refine ⟨[.main, .main], _, .snoc (l := [.main]) .main (.snoc (l := []) .main (.nil _) trivial h1) trivial h2, ?_⟩
  refine ⟨.work 0, .work 1, by simp, ?_, ?_, .base 0, ?_, Or.inr ?_⟩ <;> simp [Enabled, writes, setTask]

end

/-! ### The triangle fitness function -/

section
variable {g : Geo} {fl : ℚ → ℚ} {I : Img} {bs N : Nat} {srt : Sorter} {cutoff : Nat} {init : List (List NP)} {k : Nat} {z : ℚ} {bf : D → D → Bufs}
  {M : Mutator → Prop}

/-- A new triangle function evaluates the triangulation of the points inserted one after the other. -/
theorem freshFit_tri {ps : List NP} {v : ℚ} (h : freshFit (triFun g fl z I bs bf) ps = some v) :
    ∃ d, exec g fl I.w I.h ((pix fl I ps).map .ins) = some d ∧ evalTris fl z I bs (iterTriangles d) = some v := by
  unfold freshFit at h
  simp only [Option.bind_eq_some_iff] at h
  obtain ⟨d, ⟨d0, h1, h2⟩, h3⟩ := h
  rw [ins_run] at h2
  refine ⟨d, ?_, by rw [← plain_tri]; exact h3⟩
  unfold exec
  have h1' : newDelaunay g I.w I.h = some d0 := h1
  rw [h1']
  exact h2

/-- **C82**, `NewMany` over `NewTrianglesImageFunction`: at all times the reported best fitness is that of the best initial member. -/
theorem c82_many_triangles_partial (S : TriSetting g fl I bs N srt cutoff init k) {n : Nat} {a : Algo D Tri}
    (h : EvExec Ev.generic (triFun g fl z I bs bf) srt cutoff M init (newMany init.length) n a) :
    (∃ p ∈ init, ∃ d, exec g fl I.w I.h ((pix fl I p).map .ins) = some d ∧ evalTris fl z I bs (iterTriangles d) = some a.bestFit) ∧
    ∀ p ∈ init, ∃ d v, exec g fl I.w I.h ((pix fl I p).map .ins) = some d ∧ evalTris fl z I bs (iterTriangles d) = some v ∧ v ≤ a.bestFit := by
  have L := S.setting z bf
  have MS : ManySetting (triFun g fl z I bs bf) (fun t => InImage I.w I.h t ∧ NonDegenerate t) Unit01 N (TriRepr g fl I N) srt init :=
    ⟨L.laws, S.sort, lt_of_lt_of_le (by have := S.cutoff1; omega) S.cutoff2, S.init⟩
  obtain ⟨-, -, -, ⟨p, hp, e⟩, h5, -⟩ := c82_many MS h
  obtain ⟨d, h1, h2⟩ := freshFit_tri e
  refine ⟨⟨p, hp, d, h1, h2⟩, ?_⟩
  intro p hp
  obtain ⟨v, e, hv⟩ := h5 p hp
  obtain ⟨d, h1, h2⟩ := freshFit_tri e
  exact ⟨d, v, h1, h2, hv⟩

end

/-! ### Functions whose value depends only on the points -/

/-- **C82**, functions that return `f` of the points: with either generic evaluator the fitnesses are those of the members, in decreasing
order, `Best` is a member with the greatest fitness, `BestFitness` is its fitness and never decreases. -/
theorem c82_stateless {Dt K : Type} {f : List NP → ℚ} {srt : Sorter} (hs : SortOK srt) {cutoff : Nat} (hc : 1 ≤ cutoff) {M : Mutator → Prop} {init : List (List NP)}
    {s : Sys Dt K} {g : Nat} {a : Algo Dt K} (h : PureExec f srt cutoff M init s g a) :
    a.gen = g ∧ a.pop.length = init.length ∧ a.fit = a.pop.map f ∧ a.best ∈ a.pop ∧ a.bestFit = f a.best ∧ (∀ p ∈ a.pop, f p ≤ a.bestFit) ∧
    ∀ μ o a', PureStep f srt cutoff μ o a a' → a.bestFit ≤ a'.bestFit := by
  obtain ⟨I, hg⟩ := pure_exec hs hc h
  have hb : a.bestFit = f a.best := by
    have := I.bestFit
    rw [I.fit, List.getElem?_map, I.best] at this
    simpa using this.symm
  refine ⟨hg, I.pop, I.fit, List.mem_of_getElem? I.best, hb, ?_, fun μ o a' hst => (pure_step hs hc I hst).2.2⟩
  intro p hp
  exact sorted_head I.sorted I.bestFit _ (by rw [I.fit]; exact List.mem_map_of_mem hp)

/-! ### Concrete cases -/

/-- A sorter that can be run on two members. -/
noncomputable def pairSorter : Sorter
  | [a, b] => if a < b then [(0, 1)] else []
  | l => someSorter l

theorem pairSorter_ok : SortOK pairSorter := by
  intro l
  match l with
  | [a, b] =>
    by_cases h : a < b
    · have e : pairSorter [a, b] = [(0, 1)] := by simp [pairSorter, h]
      rw [e]
      exact ⟨[b, a], rfl, by simp [h.le]⟩
    · have e : pairSorter [a, b] = [] := by simp [pairSorter, h]
      rw [e]
      exact ⟨[a, b], rfl, by simpa using h⟩
  | [] => exact someSorter_ok []
  | [a] => exact someSorter_ok [a]
  | a :: b :: c :: l => exact someSorter_ok (a :: b :: c :: l)

/-- Two members; the second is the fitter one. -/
def couple : List (List NP) := [tinyPoints, unitCorners]

/-- A mutator that moves all points to the origin and records it. -/
def collapse : Mutator := fun _ ps => (ps.map fun _ => ⟨0, 0⟩, ps.zipIdx.map fun x => ⟨x.1, ⟨0, 0⟩, x.2⟩)

/-- A schedule: both tasks submitted, the workers one after the other, each with two triangles, both results received. -/
def plainSchedule : List Who :=
  [.main, .main, .main] ++ List.replicate 5 (.work 0) ++ List.replicate 5 (.work 1) ++ [.main, .main]

/-- `NewSimple` under the schedule. -/
noncomputable def coupleNew : Option (Algo D Tri) := do
  let a ← evInit couple (newMany 2)
  let q ← evPlay Ev.generic tinyFun 2 (ptsOf a) (mutsOf a) (Ph.start a.sys) plainSchedule
  if q.pc = .recv 2 then evUpdateFitnesses Ev.generic pairSorter { a with sys := q.sys, fit := collect a.fit q.arr } else none

/-- `Step` under the schedule, cutoff 1. -/
noncomputable def coupleStep (a : Algo D Tri) : Option (Algo D Tri) := do
  let a ← evNewGeneration Ev.generic collapse 1 2 a
  let q ← evPlay Ev.generic tinyFun 2 (ptsOf a) (mutsOf a) (Ph.start a.sys) plainSchedule
  if q.pc = .recv 2 then (evUpdateFitnesses Ev.generic pairSorter { a with sys := q.sys, fit := collect a.fit q.arr }).map fun a => { a with gen := a.gen + 1 }
  else none

theorem couple_run : ((coupleNew.bind coupleStep).map fun a => decide (a.gen = 1 ∧ a.best = [⟨0, 0⟩, ⟨0, 0⟩, ⟨0, 0⟩, ⟨0, 0⟩] ∧ 3 / 4 < a.bestFit)) = some true := by
  decide +kernel

theorem collapse_ok (N : Nat) : MutOK Unit01 N collapse := by
  intro i ps _ _
  have hmem : ∀ m ∈ (collapse i ps).2, ∃ j, ∃ h : j < ps.length, m = ⟨ps[j], ⟨0, 0⟩, j⟩ := by
    intro m hm
    obtain ⟨x, hx, rfl⟩ := List.mem_map.mp hm
    obtain ⟨p, j⟩ := x
    have := List.mem_zipIdx hx
    exact ⟨j, by omega, by simp [this.2.2]⟩
  refine ⟨by simp [collapse], ?_, ?_, ?_, ?_, ?_⟩
  · have : ((collapse i ps).2.map Mut.index) = List.range ps.length := by
      apply List.ext_getElem?
      intro j
      by_cases hj : j < ps.length
      · simp [collapse, hj]
      · rw [List.getElem?_eq_none (by simpa [collapse] using hj), List.getElem?_eq_none (by simpa using hj)]
    rw [this]
    exact List.nodup_range
  · intro m hm
    obtain ⟨j, hj, rfl⟩ := hmem m hm
    simp [hj]
  · intro m hm
    obtain ⟨j, hj, rfl⟩ := hmem m hm
    simp [collapse, hj]
  · intro j hj
    by_cases h : j < ps.length
    · refine absurd rfl (hj ⟨ps[j], ⟨0, 0⟩, j⟩ ?_)
      refine List.mem_map.mpr ⟨(ps[j], j), ?_, rfl⟩
      rw [List.mem_zipIdx_iff_getElem?]
      simp [h]
    · rw [List.getElem?_eq_none (by simpa [collapse] using h), List.getElem?_eq_none (by simpa using h)]
  · intro m hm
    obtain ⟨j, hj, rfl⟩ := hmem m hm
    unfold Unit01
    norm_num

theorem couple_setting : ManySetting tinyFun (fun t => InImage 4 4 t ∧ NonDegenerate t) Unit01 4 (TriRepr (gridGeo ieee 4 4) (rne 53) (checker (rne 53) 4 4) 4)
    pairSorter couple := by
  have hs : SizeOk 4 4 := ⟨by norm_num, by norm_num, by norm_num, by norm_num, by norm_num⟩
  refine ⟨tri_laws (rne_rnd (by norm_num)) (fun _ => arith_ieee (w := 4) (h := 4) hs (by decide))
    (ofBytes_ok (rne_rnd (by norm_num)) _ _ _) (by norm_num) (by norm_num) (by norm_num), pairSorter_ok, by decide, ?_⟩
  unfold Unit01
  decide +kernel

/-- **C82** for `NewMany`, where C43 fails: a step of the algorithm with two members on a 4 x 4 image after which `Best` has all its points
at the origin, and so no triangle and the fitness 0, while the reported best fitness, that of another member, is above 3/4. -/
theorem c82_many_false : ∃ a, EvExec Ev.generic tinyFun pairSorter 1 (MutOK Unit01 4) couple (newMany 2) 1 a ∧
    a.best = [⟨0, 0⟩, ⟨0, 0⟩, ⟨0, 0⟩, ⟨0, 0⟩] ∧ freshFit tinyFun a.best = some 0 ∧ 3 / 4 < a.bestFit := by
  have h := couple_run
  rw [Option.map_eq_some_iff] at h
  obtain ⟨a, ha, hd⟩ := h
  rw [decide_eq_true_eq] at hd
  obtain ⟨-, h2, h3⟩ := hd
  rw [Option.bind_eq_some_iff] at ha
  obtain ⟨b, hb, hs⟩ := ha
  refine ⟨a, ?_, h2, by rw [h2]; decide +kernel, h3⟩
  unfold coupleNew at hb
  simp only [Option.bind_eq_bind, Option.bind_eq_some_iff] at hb
  obtain ⟨b0, hb0, q, hq, hb⟩ := hb
  split at hb
  rotate_left
  · cases hb
  rename_i hpc
  have e0 : b0.pop.length = 2 := by
    unfold evInit at hb0
    simp only [Option.bind_eq_bind, Option.bind_eq_some_iff] at hb0
    obtain ⟨_, _, h⟩ := hb0
    cases h
    rfl
  have N : EvExec Ev.generic tinyFun pairSorter 1 (MutOK Unit01 4) couple (newMany 2) 0 b := by
    refine .new (l := plainSchedule) ⟨b0, q, hb0, ?_, ?_, hb⟩
    · rw [e0]; exact evPlay_run plainSchedule (.nil _) hq
    · rw [e0]; exact ⟨hpc, by norm_num⟩
  unfold coupleStep at hs
  simp only [Option.bind_eq_bind, Option.bind_eq_some_iff] at hs
  obtain ⟨c, hc, q', hq', hs⟩ := hs
  split at hs
  rotate_left
  · cases hs
  rename_i hpc'
  rw [Option.map_eq_some_iff] at hs
  obtain ⟨d, hd, rfl⟩ := hs
  have e1 : b.pop.length = 2 := (c82_many couple_setting N).2.1
  have e2 : c.pop.length = 2 := by
    obtain ⟨T, V, H, hb, hV⟩ := couple_setting.first
    obtain ⟨L, hL, hsort⟩ := couple_setting.sort ((List.range couple.length).map V)
    rw [(evNewGeneration_generic hc).2.2.2.1]
    exact (many_exec H hb hL N).1.newPop
  refine .step (l := plainSchedule) N (collapse_ok 4) ⟨c, q', d, by rw [e1]; exact hc, ?_, ?_, hd, rfl⟩
  · rw [e2]; exact evPlay_run plainSchedule (.nil _) hq'
  · rw [e2]; exact ⟨hpc', by norm_num⟩

/-- The theorems about `many` apply to this execution. -/
example : ∃ a, EvExec Ev.generic tinyFun pairSorter 1 (MutOK Unit01 4) couple (newMany 2) 1 a ∧ freshFit tinyFun unitCorners = some a.bestFit := by
  obtain ⟨a, h, -, -, h3⟩ := c82_many_false
  refine ⟨a, h, ?_⟩
  obtain ⟨p, hp, e⟩ := (c82_many couple_setting h).2.2.2.1
  have hp' : p = tinyPoints ∨ p = unitCorners := by simpa [couple] using hp
  rcases hp' with rfl | rfl
  · exfalso
    have : (freshFit tinyFun tinyPoints).map (fun v => decide (v < 3 / 4)) = some true := by decide +kernel
    rw [e, Option.map_some, Option.some.injEq, decide_eq_true_eq] at this
    exact absurd this (not_lt.mpr h3.le)
  · exact e

/-- The theorem about `one` applies: the corners are evaluated first, then other points. -/
example : ∃ v s w s', calculate tinyFun (newOne 2) 0 unitCorners [] = some (v, s) ∧ calculate tinyFun s 1 tinyPoints [] = some (w, s') ∧
    freshFit tinyFun unitCorners = some v ∧ w = v := by
  have h : ((calculate tinyFun (newOne 2) 0 unitCorners []).bind fun x => calculate tinyFun x.2 1 tinyPoints []).isSome = true := by decide +kernel
  obtain ⟨⟨w, s'⟩, h⟩ := Option.isSome_iff_exists.mp h
  rw [Option.bind_eq_some_iff] at h
  obtain ⟨⟨v, s⟩, h1, h2⟩ := h
  obtain ⟨a, b⟩ := c82_one (ok := fun _ => True) (same_tri _) (fun _ _ _ => trivial) h1
  exact ⟨v, s, w, s', h1, h2, a, b [(1, tinyPoints, [])] s' [w] (by simp; exact h2) w (by simp)⟩

/-- A function of the points alone: the number of points in the left half. -/
def leftCount (ps : List NP) : ℚ := (ps.filter fun p => decide (p.x < 1 / 2)).length

/-- The theorem about functions of the points applies: the second member is the best one. -/
example : ∃ a : Algo Unit Unit, PureExec leftCount pairSorter 1 (fun _ => True) [unitCorners, [⟨0, 0⟩, ⟨0, 1⟩, ⟨1 / 4, 0⟩, ⟨1, 1⟩]] (newMany 2) 0 a ∧
    a.bestFit = 3 ∧ leftCount a.best = 3 := by
  have h : ((evInit (Dt := Unit) (K := Unit) [unitCorners, [⟨0, 0⟩, ⟨0, 1⟩, ⟨1 / 4, 0⟩, ⟨1, 1⟩]] (newMany 2)).bind fun a =>
      (evUpdateFitnesses Ev.generic pairSorter { a with fit := collect a.fit ([1, 0].map fun i => (i, leftCount (ptsOf a i))) }).map fun b =>
        decide (a.pop.length = 2 ∧ b.bestFit = 3)) = some true := by decide +kernel
  rw [Option.bind_eq_some_iff] at h
  obtain ⟨a, ha, h⟩ := h
  rw [Option.map_eq_some_iff] at h
  obtain ⟨b, hb, h⟩ := h
  rw [decide_eq_true_eq] at h
  have E : PureExec leftCount pairSorter 1 (fun _ => True) [unitCorners, [⟨0, 0⟩, ⟨0, 1⟩, ⟨1 / 4, 0⟩, ⟨1, 1⟩]] (newMany 2) 0 b :=
    .new ⟨a, ha, by rw [h.1]; decide, hb⟩
  obtain ⟨-, -, -, -, e, -⟩ := c82_stateless pairSorter_ok le_rfl E
  exact ⟨b, E, h.2, by rw [← e, h.2]⟩

end Verif.Props

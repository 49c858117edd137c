import Verif.Alg.VorFun
import Verif.Alg.BookValid
import Verif.Props.Simple
import Verif.Props.Modified
import Verif.Props.ModTri
import Verif.Props.Cache

/-!
# The polygon fitness function: evaluation (C77) and the algorithms on it (C42-C49, C64)

With rounding, the sort of the corners of a Voronoi cell can panic (`c22_panics_false`), so the theorems named `_partial` here speak of
executions in which it did not.  They hold for IEEE arithmetic and images up to 4096 pixels a side.  Without rounding there is no panic
(theorems named `_exact`).
-/

namespace Verif.Props

open Verif.Tri Verif.Spec Verif.Float Verif.Raster Verif.Fit Verif.Alg
open Verif.Vor hiding Sorter
open Verif.Incr hiding trunc step run Entry

/-- The conditions under which the algorithm runs on the polygon fitness function: see `TriSetting`; `vs` sorts the corners of a cell. -/
structure VorSetting (g : Geo) (F : FloatOps) (vs : Vor.Sorter) (I : Img) (bs N : Nat) (srt : Sorter) (cutoff : Nat) (init : List (List NP)) (k : Nat) : Prop where
  arith : ∀ ops, VArith g F I.w I.h ops
  corners : SorterOK vs
  img : I.OK
  bs1 : 1 ≤ bs
  bs2 : bs ≤ 16
  points : N ≤ 32767
  sort : SortOK srt
  exponent : 1 ≤ k
  cutoff1 : 1 ≤ cutoff
  cutoff2 : cutoff ≤ init.length
  init : ∀ p ∈ init, p.length = N ∧ ∀ q ∈ p, (0 ≤ q.x ∧ q.x ≤ 1) ∧ 0 ≤ q.y ∧ q.y ≤ 1

variable {g : Geo} {F : FloatOps} {vs : Vor.Sorter} {I : Img} {bs N : Nat} {srt : Sorter} {cutoff : Nat} {init : List (List NP)} {k : Nat} {z : ℚ}
  {bf : V → V → VBufs}

theorem VorSetting.weak (S : VorSetting g F vs I bs N srt cutoff init k) (z : ℚ) (bf : V → V → VBufs) :
    Setting (opt (vorFun g F vs z I bs bf)) Int16Poly Unit01 N (optRepr (VorRepr g F vs I N)) srt cutoff init k :=
  ⟨(vor_wlaws S.arith S.corners S.img S.bs1 S.bs2 S.points).laws, S.sort, S.exponent, S.cutoff1, S.cutoff2, S.init⟩

theorem VorSetting.mweak (S : VorSetting g F vs I bs N srt cutoff init k) (h2 : 2 * cutoff ≤ init.length) (z : ℚ) (bf : V → V → VBufs) :
    MSetting (opt (vorFun g F vs z I bs bf)) Int16Poly Unit01 N (optRepr (VorRepr g F vs I N)) srt cutoff init k :=
  ⟨(vor_wlaws S.arith S.corners S.img S.bs1 S.bs2 S.points).laws, S.sort, S.exponent, S.cutoff1, h2, S.init⟩

theorem VorSetting.setting (S : VorSetting g F vs I bs N srt cutoff init k) (C : NoClash F I.w I.h) (z : ℚ) (bf : V → V → VBufs) :
    Setting (vorFun g F vs z I bs bf) Int16Poly Unit01 N (VorRepr g F vs I N) srt cutoff init k :=
  ⟨vor_laws S.arith C S.corners S.img S.bs1 S.bs2 S.points, S.sort, S.exponent, S.cutoff1, S.cutoff2, S.init⟩

/-- IEEE arithmetic qualifies for images up to 4096 pixels a side. -/
theorem vor_setting_ieee {w h : Nat} (hs : SizeOk w h) (hw : side w h ≤ 4096) (hv : SorterOK vs) (px : Nat → Nat → Fin 256 × Fin 256 × Fin 256) (b1 : 1 ≤ bs) (b2 : bs ≤ 16)
    (hN : N ≤ 32767) (hsrt : SortOK srt) (hk : 1 ≤ k) (c1 : 1 ≤ cutoff) (c2 : cutoff ≤ init.length)
    (hi : ∀ p ∈ init, p.length = N ∧ ∀ q ∈ p, (0 ≤ q.x ∧ q.x ≤ 1) ∧ 0 ≤ q.y ∧ q.y ≤ 1) :
    VorSetting (gridGeo ieee w h) ieee vs (ofBytes (rne 53) w h px) bs N srt cutoff init k :=
  ⟨fun _ => varith_ieee hs hw, hv, ofBytes_ok (rne_rnd (by norm_num)) w h px, b1, b2, hN, hsrt, hk, c1, c2, hi⟩

/-- Arithmetic without rounding qualifies for all images. -/
theorem vor_setting_exact {w h : Nat} (hs : SizeOk w h) (hv : SorterOK vs) (px : Nat → Nat → Fin 256 × Fin 256 × Fin 256) (b1 : 1 ≤ bs) (b2 : bs ≤ 16)
    (hN : N ≤ 32767) (hsrt : SortOK srt) (hk : 1 ≤ k) (c1 : 1 ≤ cutoff) (c2 : cutoff ≤ init.length)
    (hi : ∀ p ∈ init, p.length = N ∧ ∀ q ∈ p, (0 ≤ q.x ∧ q.x ≤ 1) ∧ 0 ≤ q.y ∧ q.y ≤ 1) :
    VorSetting (gridGeo exactOps w h) exactOps vs (ofBytes (fun x => x) w h px) bs N srt cutoff init k :=
  ⟨fun _ => varith_exact hs, hv, ofBytes_ok (id_rnd 53) w h px, b1, b2, hN, hsrt, hk, c1, c2, hi⟩

theorem noClash_exact (w h : Nat) : NoClash exactOps w h := fun _ _ _ _ _ _ => exact_no_clash exactOps_exact w h _ _

/-! ### C77 -/

/-- Diagrams of the same points report the same polygons, however often each point was inserted. -/
theorem polygons_perm_set {w h : Nat} {g' : Geo} {ops ops' : List Op} {s s' : Multiset Pt} {m m' : Nat} {v v' : V} (A : VArith g F w h ops) (H : Hist w h ops s m)
    (e : vExec g F vs w h ops = some v) (A' : VArith g' F w h ops') (H' : Hist w h ops' s' m') (e' : vExec g' F vs w h ops' = some v') (S : SorterOK vs)
    (hs : ∀ q, q ∈ s ↔ q ∈ s') (hn : ∀ q ∈ s, ¬ CellClash F w h s q) : (iterPolygons v).Perm (iterPolygons v') := by
  obtain ⟨n1, m1⟩ := c22_one_each_partial A H e
  obtain ⟨n2, m2⟩ := c22_one_each_partial A' H' e'
  have P : v.pm.flatten.Perm v'.pm.flatten := by
    rw [List.perm_ext_iff_of_nodup n1.of_map n2.of_map]
    rintro ⟨q, l⟩
    constructor
    · intro hl
      have hq := (m1 q).mp ⟨l, hl⟩
      obtain ⟨l', hl'⟩ := (m2 q).mpr ((hs q).mp hq)
      rw [c67_history_independent_partial A H e A' H' e' S hs (hn q hq) hl hl']
      exact hl'
    · intro hl'
      have hq := (hs q).mpr ((m2 q).mp ⟨l, hl'⟩)
      obtain ⟨l', hl⟩ := (m1 q).mpr hq
      rw [← c67_history_independent_partial A H e A' H' e' S hs (hn q hq) hl hl']
      exact hl
  exact (P.map _).filter _

theorem polygons_perm {w h : Nat} {g' : Geo} {ops ops' : List Op} {s : Multiset Pt} {m m' : Nat} {v v' : V} (A : VArith g F w h ops) (H : Hist w h ops s m)
    (e : vExec g F vs w h ops = some v) (A' : VArith g' F w h ops') (H' : Hist w h ops' s m') (e' : vExec g' F vs w h ops' = some v') (S : SorterOK vs)
    (hn : ∀ q ∈ s, ¬ CellClash F w h s q) : (iterPolygons v).Perm (iterPolygons v') :=
  polygons_perm_set A H e A' H' e' S (fun _ => Iff.rfl) hn

/-- Without rounding, the fitness does not depend on the order of the polygons. -/
theorem evalPolys_perm {fl : ℚ → ℚ} (hid : ∀ x, fl x = x) {P Q : List (List (ℚ × ℚ))} (h : P.Perm Q) : evalPolys fl z I bs P = evalPolys fl z I bs Q := by
  have key : ∀ s : ℚ, P.foldlM (fun s p => (polyValue fl z I bs (roundPoly fl p)).map fun v => fl (s + v)) s =
      Q.foldlM (fun s p => (polyValue fl z I bs (roundPoly fl p)).map fun v => fl (s + v)) s := by
    induction h with
    | nil => intro s; rfl
    | cons p _ ih =>
      intro s
      rw [List.foldlM_cons, List.foldlM_cons]
      cases polyValue fl z I bs (roundPoly fl p) with
      | none => rfl
      | some v => exact ih _
    | swap p q l =>
      intro s
      simp only [List.foldlM_cons]
      cases polyValue fl z I bs (roundPoly fl p) with
      | none => cases polyValue fl z I bs (roundPoly fl q) <;> rfl
      | some a =>
        cases polyValue fl z I bs (roundPoly fl q) with
        | none => rfl
        | some b =>
          simp only [Option.map_some, Option.bind_eq_bind, Option.bind_some, hid]
          rw [add_right_comm]
    | trans _ _ ih1 ih2 => intro s; exact (ih1 s).trans (ih2 s)
  unfold evalPolys
  rw [key]

theorem plain_vor (v : V) : plain (vorFun g F vs z I bs bf) v = evalPolys F.r64 z I bs (iterPolygons v) := plain_poly v

/-- **C77** (partial: under `VArith`, as long as no panic occurs; for full equality no indistinguishable corners among the cells of these points).
Take any history of calls in turn in which every function is first given points of the unit square and later only mutations recorded against the points
its base then has.  The value of a last `Calculate` with points `ps` is the uncached fitness of the polygons of a diagram that holds exactly the pixel points of
`ps`; these are the polygons of a diagram built afresh from `ps`, in some order; in exact arithmetic the fitness is the same. -/
theorem c77_evaluation_partial (A : ∀ ops, VArith g F I.w I.h ops) (S : SorterOK vs) (hI : I.OK) (hb : 1 ≤ bs) (hb' : bs ≤ 16) (hN : N ≤ 32767)
    {n k : Nat} (hk : 1 ≤ k) {cs : List Call} {i : Nat} {ps : List NP} {ms : List Mut} {B : Book} {p : List Bool}
    (hB : Recordeds Unit01 N (Book.new n) (cs ++ [.calculate i ps ms]) B) (hf : flags (List.replicate n false) (cs ++ [.calculate i ps ms]) = some p)
    {s s' : Sys V (List Pt)} {v : ℚ} (hs : calls (vorFun g F vs z I bs bf) (newParallel n k) cs = some s)
    (hv : calculate (vorFun g F vs z I bs bf) s i ps ms = some (v, s')) :
    ∃ ops m d, Hist I.w I.h ops ↑(pix F.r64 I ps) m ∧ vExec g F vs I.w I.h ops = some d ∧ evalPolys F.r64 z I bs (iterPolygons d) = some v ∧
      ((∀ q ∈ pix F.r64 I ps, ¬ CellClash F I.w I.h ↑(pix F.r64 I ps) q) →
        ∀ d', vExec g F vs I.w I.h ((pix F.r64 I ps).map .ins) = some d' → (iterPolygons d).Perm (iterPolygons d') ∧
          ((∀ x, F.r64 x = x) → evalPolys F.r64 z I bs (iterPolygons d') = some v)) := by
  obtain ⟨id, d, h1, h2, ⟨u, len, ops, m, d0, H, e, st⟩, h4⟩ := book_last_weak (vor_wlaws A S hI hb hb' hN) hk hB hf hs hv
  have hw : I.w ≤ 32767 := (A []).tri.size.w2.trans (by norm_num)
  have hh : I.h ≤ 32767 := (A []).tri.size.h2.trans (by norm_num)
  rw [plain_vor, vstrip_iter st] at h4
  refine ⟨ops, m, d0, H, e, h4, ?_⟩
  intro hn d' e'
  obtain ⟨⟨m', H'⟩, -⟩ := vor_build (g := g) (vs := vs) (z := z) (bs := bs) (bf := bf) (A []).rnd hw hh (len.le.trans hN) u
  have P := polygons_perm (A _) H e (A _) H' e' S (by simpa using hn)
  exact ⟨P, fun hid => by rw [← evalPolys_perm hid P]; exact h4⟩

/-- **C77** without rounding: no call panics, and the value is the fitness of the points evaluated afresh.  Unlike for triangles
(`c40_cocircular_false`) the points may lie on one circle. -/
theorem c77_exact {w h : Nat} (hsz : SizeOk w h) (px : Nat → Nat → Fin 256 × Fin 256 × Fin 256) (S : SorterOK vs) (hb : 1 ≤ bs) (hb' : bs ≤ 16) (hN : N ≤ 32767)
    {n k : Nat} (hk : 1 ≤ k) {cs : List Call} {i : Nat} {ps : List NP} {ms : List Mut} {B : Book} {p : List Bool}
    (hB : Recordeds Unit01 N (Book.new n) (cs ++ [.calculate i ps ms]) B) (hf : flags (List.replicate n false) (cs ++ [.calculate i ps ms]) = some p) :
    ∃ s s' v d, calls (vorFun (gridGeo exactOps w h) exactOps vs z (ofBytes (fun x => x) w h px) bs bf) (newParallel n k) cs = some s ∧
      calculate (vorFun (gridGeo exactOps w h) exactOps vs z (ofBytes (fun x => x) w h px) bs bf) s i ps ms = some (v, s') ∧
      vExec (gridGeo exactOps w h) exactOps vs w h ((pix (fun x => x) (ofBytes (fun x => x) w h px) ps).map .ins) = some d ∧
      evalPolys (fun x => x) z (ofBytes (fun x => x) w h px) bs (iterPolygons d) = some v := by
  have A : ∀ ops, VArith (gridGeo exactOps w h) exactOps w h ops := fun _ => varith_exact hsz
  have hI : (ofBytes (fun x => x) w h px).OK := ofBytes_ok (id_rnd 53) w h px
  obtain ⟨s, v, s', id, d, h1, h2, -, -, -, ⟨u, len, -⟩, -⟩ := book_last (vor_laws (g := gridGeo exactOps w h) (F := exactOps) (vs := vs) (z := z)
    (I := ofBytes (fun x => x) w h px) (bs := bs) (bf := bf) A (noClash_exact w h) S hI hb hb' hN) hk hB hf
  obtain ⟨ops, m, d0, H, e, h3, h4⟩ := c77_evaluation_partial (g := gridGeo exactOps w h) (F := exactOps) (vs := vs) (z := z)
    (I := ofBytes (fun x => x) w h px) (bs := bs) (bf := bf) A S hI hb hb' hN hk hB hf h1 h2
  have hw : w ≤ 32767 := hsz.w2.trans (by norm_num)
  have hh : h ≤ 32767 := hsz.h2.trans (by norm_num)
  obtain ⟨⟨m', H'⟩, -⟩ := vor_build (g := gridGeo exactOps w h) (F := exactOps) (vs := vs) (z := z) (I := ofBytes (fun x => x) w h px) (bs := bs) (bf := bf)
    (id_rnd 53) hw hh (len.le.trans hN) u
  obtain ⟨d', e', -⟩ := c22_exact hsz H' S
  exact ⟨s, s', v, d', h1, h2, e', (h4 (fun q _ => exact_no_clash exactOps_exact w h _ q) d' e').2 (fun _ => rfl)⟩

/-! ### The simple algorithm -/

section
variable {n : Nat} {a a' b : Algo V (List Pt)} {μ : Mutator} {l : List Who}

/-- **C42** for polygons (partial: under `VArith`, as long as no panic occurs). -/
theorem c42_polygons_partial (S : VorSetting g F vs I bs N srt cutoff init k) (h : SimpleExec (vorFun g F vs z I bs bf) srt cutoff (MutOK Unit01 N) init k n a)
    (hμ : MutOK Unit01 N μ) (hs : SimpleStep (vorFun g F vs z I bs bf) srt cutoff μ l a a') : a.bestFit ≤ a'.bestFit :=
  c42_simple (S.weak z bf) (lift_exec h) hμ (lift_step hs)

/-- **C43** for polygons (partial: under `VArith`, as long as no panic occurs). -/
theorem c43_polygons_partial (S : VorSetting g F vs I bs N srt cutoff init k) (h : SimpleExec (vorFun g F vs z I bs bf) srt cutoff (MutOK Unit01 N) init k n a) :
    a.pop[0]? = some a.best ∧ a.fit[0]? = some a.bestFit ∧ a.fit.length = a.pop.length ∧ ∀ v ∈ a.fit, v ≤ a.bestFit :=
  c43_simple (S.weak z bf) (lift_exec h)

/-- **C44** for polygons (partial: under `VArith`, as long as no panic occurs). -/
theorem c44_polygons_partial (S : VorSetting g F vs I bs N srt cutoff init k) (h : SimpleExec (vorFun g F vs z I bs bf) srt cutoff (MutOK Unit01 N) init k n a) :
    a.gen = n ∧ a.pop.length = init.length ∧ ∀ p ∈ a.pop, p.length = N ∧ ∀ q ∈ p, Unit01 q :=
  c44_simple (S.weak z bf) (lift_exec h)

/-- **C45** for polygons (partial: under `VArith`, as long as no panic occurs). -/
theorem c45_polygons_partial (S : VorSetting g F vs I bs N srt cutoff init k) {μs : List Mutator} (hM : ∀ μ ∈ μs, MutOK Unit01 N μ)
    (h : SimpleTrace (vorFun g F vs z I bs bf) srt cutoff init k μs a) (h' : SimpleTrace (vorFun g F vs z I bs bf) srt cutoff init k μs b) :
    a.pop = b.pop ∧ a.fit = b.fit ∧ a.best = b.best ∧ a.bestFit = b.bestFit ∧ a.gen = b.gen ∧ a.sys.slots = b.sys.slots ∧
      ∀ id, (a.sys.fns id).tri = (b.sys.fns id).tri := by
  obtain ⟨h1, h2, h3, h4, h5, h6, h7⟩ := c45_simple (S.weak z bf) hM (lift_trace h) (lift_trace h')
  refine ⟨h1, h2, h3, h4, h5, h6, fun id => ?_⟩
  exact Option.map_injective (Option.some_injective _) (h7 id)

/-- **C47** for polygons (partial: under `VArith`).  In every state of every evaluation: only the changes to a Voronoi diagram at the start of a `Calculate` can
panic; no send blocks; some goroutine can move until the collector has finished; schedules have bounded length; at the end exactly one result per member has
been received. -/
theorem c47_polygons_partial (S : VorSetting g F vs I bs N srt cutoff init k) (hb : EvalStart (vorFun g F vs z I bs bf) srt cutoff (MutOK Unit01 N) init k b) :
    ∃ bound, ∀ l p, Run (vorFun g F vs z I bs bf) b.pop.length (ptsOf b) (mutsOf b) (Ph.start b.sys) l p →
      (∀ w, Enabled b.pop.length p w → (∀ i id, w = .work i → p.tasks i ≠ .ready id) →
        (move (vorFun g F vs z I bs bf) b.pop.length (ptsOf b) (mutsOf b) p w).isSome) ∧
      p.chan.length ≤ b.pop.length ∧
      (¬ p.Finished b.pop.length → ∃ w, Enabled b.pop.length p w) ∧
      l.length ≤ bound ∧
      (p.Finished b.pop.length → (p.arr.map Prod.fst).Perm (List.range b.pop.length) ∧ p.chan = [] ∧ ∀ w, ¬ Enabled b.pop.length p w) := by
  obtain ⟨bound, hB⟩ := c47_simple (S.weak z bf) (lift_evalStart hb)
  refine ⟨bound, fun l p h => ?_⟩
  obtain ⟨h1, h2, h3, h4, h5⟩ := hB l p.lift (lift_run h)
  exact ⟨fun w hw hr => move_some (h1 w hw) hr, h2, h3, h4, h5⟩

/-- **C48** for polygons (partial: under `VArith`). -/
theorem c48_polygons_partial (S : VorSetting g F vs I bs N srt cutoff init k) (hb : EvalStart (vorFun g F vs z I bs bf) srt cutoff (MutOK Unit01 N) init k b)
    {p : Ph V (List Pt)} (h : Run (vorFun g F vs z I bs bf) b.pop.length (ptsOf b) (mutsOf b) (Ph.start b.sys) l p) :
    ¬ ∃ w w', w ≠ w' ∧ Enabled b.pop.length p w ∧ Enabled b.pop.length p w' ∧
      ∃ x ∈ writes b.pop.length p w, x ∈ reads (vorFun g F vs z I bs bf) b.pop.length p w' ∨ x ∈ writes b.pop.length p w' := by
  rintro ⟨w, w', hne, e, e', x, hx, hx'⟩
  refine c48_simple (S.weak z bf) (lift_evalStart hb) (lift_run h) ⟨w, w', hne, e, e', x, ?_, ?_⟩
  · rw [lift_writes]; exact hx
  · rw [lift_writes, lift_reads]; exact hx'

/-- **C49** for polygons (partial: under `VArith`, as long as no panic occurs): the diagram held by the evaluator of member `i` is that of a history of calls that
leaves exactly the points of member `i`, and the fitness of member `i` is the one computed from its polygons without caches. -/
theorem c49_polygons_partial (S : VorSetting g F vs I bs N srt cutoff init k) (h : SimpleExec (vorFun g F vs z I bs bf) srt cutoff (MutOK Unit01 N) init k n a)
    {i : Nat} {ps : List NP} (hi : a.pop[i]? = some ps) :
    ∃ id d v, a.sys.slots[i]? = some id ∧ (a.sys.fns id).tri = some d ∧ a.fit[i]? = some v ∧ evalPolys F.r64 z I bs (iterPolygons d) = some v ∧
      ∃ ops m d0, Hist I.w I.h ops ↑(pix F.r64 I ps) m ∧ vExec g F vs I.w I.h ops = some d0 ∧ iterPolygons d = iterPolygons d0 := by
  obtain ⟨id, d, v, h1, h2, h3, h4, h5⟩ := c49_simple (S.weak z bf) (lift_exec h) hi
  have h2' : (a.sys.fns id).tri.map some = some d := h2
  rw [Option.map_eq_some_iff] at h2'
  obtain ⟨d', e, rfl⟩ := h2'
  obtain ⟨u, len, ops, m, d0, H, e0, st⟩ := h3
  exact ⟨id, d', v, h1, e, h4, by rw [← plain_vor (g := g) (vs := vs) (bf := bf)]; exact h5, ops, m, d0, H, e0, vstrip_iter st⟩

/-- Without rounding every execution can be continued: neither the constructor nor any step panics. -/
theorem c47_polygons_exact {w h : Nat} {px : Nat → Nat → Fin 256 × Fin 256 × Fin 256}
    (S : VorSetting (gridGeo exactOps w h) exactOps vs (ofBytes (fun x => x) w h px) bs N srt cutoff init k) :
    (∃ l, ∃ a, NewSimple (vorFun (gridGeo exactOps w h) exactOps vs z (ofBytes (fun x => x) w h px) bs bf) srt init k l a) ∧
      ∀ n a μ, SimpleExec (vorFun (gridGeo exactOps w h) exactOps vs z (ofBytes (fun x => x) w h px) bs bf) srt cutoff (MutOK Unit01 N) init k n a → MutOK Unit01 N μ →
        ∃ l a', SimpleStep (vorFun (gridGeo exactOps w h) exactOps vs z (ofBytes (fun x => x) w h px) bs bf) srt cutoff μ l a a' :=
  c47_step_completes (S.setting (noClash_exact w h) z bf)

/-- **C49** and **C77** without rounding: in every execution, the fitness of every member is that of the polygons of its points, evaluated afresh. -/
theorem c49_polygons_exact {w h : Nat} {px : Nat → Nat → Fin 256 × Fin 256 × Fin 256}
    (S : VorSetting (gridGeo exactOps w h) exactOps vs (ofBytes (fun x => x) w h px) bs N srt cutoff init k)
    (he : SimpleExec (vorFun (gridGeo exactOps w h) exactOps vs z (ofBytes (fun x => x) w h px) bs bf) srt cutoff (MutOK Unit01 N) init k n a)
    {i : Nat} {ps : List NP} (hi : a.pop[i]? = some ps) :
    ∃ d v, vExec (gridGeo exactOps w h) exactOps vs w h ((pix (fun x => x) (ofBytes (fun x => x) w h px) ps).map .ins) = some d ∧
      evalPolys (fun x => x) z (ofBytes (fun x => x) w h px) bs (iterPolygons d) = some v ∧ a.fit[i]? = some v := by
  obtain ⟨id, d, v, -, -, h3, h4, ops, m, d0, H, e, hp⟩ := c49_polygons_partial S he hi
  have hsz : SizeOk w h := (S.arith []).tri.size
  have hw : w ≤ 32767 := hsz.w2.trans (by norm_num)
  have hh : h ≤ 32767 := hsz.h2.trans (by norm_num)
  obtain ⟨-, -, hu⟩ := c44_polygons_partial S he
  obtain ⟨len, u⟩ := hu ps (List.mem_of_getElem? hi)
  obtain ⟨⟨m', H'⟩, -⟩ := vor_build (g := gridGeo exactOps w h) (F := exactOps) (vs := vs) (z := z) (I := ofBytes (fun x => x) w h px) (bs := bs) (bf := bf)
    (id_rnd 53) hw hh (len.le.trans S.points) u
  obtain ⟨d', e', -⟩ := c22_exact hsz H' S.corners
  have P := polygons_perm (varith_exact hsz) H e (varith_exact hsz) H' e' S.corners (fun q _ => exact_no_clash exactOps_exact w h _ q)
  refine ⟨d', v, e', ?_, h3⟩
  rw [← evalPolys_perm (fun _ => rfl) P, ← hp]
  exact h4

end

/-! ### The modified genetic algorithm -/

section
variable {n : Nat} {a a' b : Algo V (List Pt)} {μ : Mutator} {l : List Who}

/-- **C42** for the modified algorithm on polygons (partial: under `VArith`, positive fitnesses, as long as no panic occurs). -/
theorem c42_modified_polygons_partial (S : VorSetting g F vs I bs N srt cutoff init k) (h2 : 2 * cutoff ≤ init.length)
    (h : PosExec (vorFun g F vs z I bs bf) srt cutoff Unit01 N init k n a) (hF : FrontPos cutoff a) (hμ : MutOK Unit01 N μ)
    (hs : ModStep (vorFun g F vs z I bs bf) srt cutoff μ l a a') : a.bestFit ≤ a'.bestFit :=
  c42_modified_partial (S.mweak h2 z bf) (lift_posExec h) hF hμ (lift_modStep hs)

/-- **C43** for the modified algorithm on polygons (partial: under `VArith`, positive fitnesses, as long as no panic occurs): `Best()` is a fittest member. -/
theorem c43_modified_polygons_partial (S : VorSetting g F vs I bs N srt cutoff init k) (h2 : 2 * cutoff ≤ init.length)
    (h : PosExec (vorFun g F vs z I bs bf) srt cutoff Unit01 N init k n a) (hF : FrontPos cutoff a) :
    a.pop[0]? = some a.best ∧ a.fit[0]? = some a.bestFit ∧ a.fit.length = a.pop.length ∧ ∀ v ∈ a.fit, v ≤ a.bestFit := by
  obtain ⟨e1, e2, e3, e4, -⟩ := c43_modified_partial (S.mweak h2 z bf) (lift_posExec h) hF
  exact ⟨e1, e2, e3, e4⟩

/-- **C44** for the modified algorithm on polygons (partial: under `VArith`, positive fitnesses, as long as no panic occurs). -/
theorem c44_modified_polygons_partial (S : VorSetting g F vs I bs N srt cutoff init k) (h2 : 2 * cutoff ≤ init.length)
    (h : PosExec (vorFun g F vs z I bs bf) srt cutoff Unit01 N init k n a) :
    a.gen = n ∧ a.pop.length = init.length ∧ ∀ p ∈ a.pop, p.length = N ∧ ∀ q ∈ p, Unit01 q :=
  c44_modified_partial (S.mweak h2 z bf) (lift_posExec h)

/-- **C48** for the modified algorithm on polygons (partial: under `VArith`, positive fitnesses). -/
theorem c48_modified_polygons_partial (S : VorSetting g F vs I bs N srt cutoff init k) (h2 : 2 * cutoff ≤ init.length)
    (hb : ModStart (vorFun g F vs z I bs bf) srt cutoff Unit01 N init k b) {p : Ph V (List Pt)}
    (h : Run (vorFun g F vs z I bs bf) (b.pop.length - cutoff) (ptsOf b) (mutsOf b) (Ph.start b.sys) l p) :
    ¬ ∃ w w', w ≠ w' ∧ Enabled (b.pop.length - cutoff) p w ∧ Enabled (b.pop.length - cutoff) p w' ∧
      ∃ x ∈ writes (b.pop.length - cutoff) p w,
        x ∈ reads (vorFun g F vs z I bs bf) (b.pop.length - cutoff) p w' ∨ x ∈ writes (b.pop.length - cutoff) p w' := by
  rintro ⟨w, w', hne, e, e', x, hx, hx'⟩
  refine c48_modified_partial (S.mweak h2 z bf) (lift_modStart hb) (lift_run h) ⟨w, w', hne, e, e', x, ?_, ?_⟩
  · rw [lift_writes]; exact hx
  · rw [lift_writes, lift_reads]; exact hx'

/-- **C47** for the modified algorithm on polygons (partial: under `VArith`, positive fitnesses). -/
theorem c47_modified_polygons_partial (S : VorSetting g F vs I bs N srt cutoff init k) (h2 : 2 * cutoff ≤ init.length)
    (hb : ModStart (vorFun g F vs z I bs bf) srt cutoff Unit01 N init k b) :
    ∃ bound, ∀ l p, Run (vorFun g F vs z I bs bf) (b.pop.length - cutoff) (ptsOf b) (mutsOf b) (Ph.start b.sys) l p →
      (∀ w, Enabled (b.pop.length - cutoff) p w → (∀ i id, w = .work i → p.tasks i ≠ .ready id) →
        (move (vorFun g F vs z I bs bf) (b.pop.length - cutoff) (ptsOf b) (mutsOf b) p w).isSome) ∧
      p.chan.length ≤ b.pop.length ∧
      (¬ p.Finished (b.pop.length - cutoff) → ∃ w, Enabled (b.pop.length - cutoff) p w) ∧
      l.length ≤ bound ∧
      (p.Finished (b.pop.length - cutoff) → (p.arr.map Prod.fst).Perm (List.range (b.pop.length - cutoff)) ∧ p.chan = [] ∧
        ∀ w, ¬ Enabled (b.pop.length - cutoff) p w) := by
  obtain ⟨bound, hB⟩ := c47_modified_partial (S.mweak h2 z bf) (lift_modStart hb)
  refine ⟨bound, fun l p h => ?_⟩
  obtain ⟨h1, h2, h3, h4, h5⟩ := hB l p.lift (lift_run h)
  exact ⟨fun w hw hr => move_some (h1 w hw) hr, h2, h3, h4, h5⟩

/-- **C64** on polygons (partial: under `VArith`, positive fitnesses, as long as no panic occurs). -/
theorem c64_modified_polygons_partial (S : VorSetting g F vs I bs N srt cutoff init k) (h2 : 2 * cutoff ≤ init.length)
    (h : PosExec (vorFun g F vs z I bs bf) srt cutoff Unit01 N init k n a) (hF : FrontPos cutoff a) {i : Nat} {ps : List NP} (hi : a.pop[i]? = some ps) :
    (∃ id d v, a.sys.slots[i]? = some id ∧ (a.sys.fns id).tri = some d ∧ a.fit[i]? = some v ∧ evalPolys F.r64 z I bs (iterPolygons d) = some v ∧
      ∃ ops m d0, Hist I.w I.h ops ↑(pix F.r64 I ps) m ∧ vExec g F vs I.w I.h ops = some d0 ∧ iterPolygons d = iterPolygons d0) ∨
      (a.fit[i]? = some 0 ∧ init.length - cutoff ≤ i) := by
  rcases c64_modified_partial (S.mweak h2 z bf) (lift_posExec h) hF hi with ⟨id, d, v, e1, e2, e3, e4, e5⟩ | e
  · have e2' : (a.sys.fns id).tri.map some = some d := e2
    rw [Option.map_eq_some_iff] at e2'
    obtain ⟨d', e6, rfl⟩ := e2'
    obtain ⟨u, len, ops, m, d0, H, e0, st⟩ := e3
    exact Or.inl ⟨id, d', v, e1, e6, e4, by rw [← plain_vor (g := g) (vs := vs) (bf := bf)]; exact e5, ops, m, d0, H, e0, vstrip_iter st⟩
  · exact Or.inr e

end

/-! ### The theorems apply -/

/-- No stale buffer contents. -/
def noVBufs : V → V → VBufs := fun _ _ => ⟨⟨[], [], fun _ _ => [], fun _ => []⟩, fun _ => []⟩

/-- Without rounding: a 40 x 30 image, three members, cutoff 1. -/
theorem trio_poly_setting : VorSetting (gridGeo exactOps 40 30) exactOps goSort (checker (fun x => x) 40 30) 5 3 someSorter 1 trio 22 := by
  refine vor_setting_exact ⟨by norm_num, by norm_num, by norm_num, by norm_num, by norm_num⟩ goSort_ok _ (by norm_num) (by norm_num) (by norm_num)
    someSorter_ok (by norm_num) le_rfl (by decide) ?_
  decide +kernel

/-- Executions of every length exist. -/
example (n : Nat) : ∃ a a' l, SimpleExec (vorFun (gridGeo exactOps 40 30) exactOps goSort 0 (checker (fun x => x) 40 30) 5 noVBufs) someSorter 1 (MutOK Unit01 3) trio 22 n a ∧
    SimpleStep (vorFun (gridGeo exactOps 40 30) exactOps goSort 0 (checker (fun x => x) 40 30) 5 noVBufs) someSorter 1 moveFirst l a a' ∧ a.bestFit ≤ a'.bestFit := by
  obtain ⟨a, h⟩ := (trio_poly_setting.setting (noClash_exact 40 30) 0 noVBufs).exec_exists (moveFirst_ok 3) n
  obtain ⟨l, a', hs⟩ := (c47_polygons_exact (z := 0) (bf := noVBufs) trio_poly_setting).2 n a moveFirst h (moveFirst_ok 3)
  exact ⟨a, a', l, h, hs, c42_polygons_partial trio_poly_setting h (moveFirst_ok 3) hs⟩

/-- C77: the corners of a 4 x 4 image, two of them moved; four points on one circle. -/
example : ∃ s s' v d, calls (vorFun (gridGeo exactOps 4 4) exactOps goSort 0 (checker (fun x => x) 4 4) 1 noVBufs) (newParallel 2 1) tinyCalls = some s ∧
    calculate (vorFun (gridGeo exactOps 4 4) exactOps goSort 0 (checker (fun x => x) 4 4) 1 noVBufs) s 1 tinyPoints tinyMut = some (v, s') ∧
    vExec (gridGeo exactOps 4 4) exactOps goSort 4 4 ((pix (fun x => x) (checker (fun x => x) 4 4) tinyPoints).map .ins) = some d ∧
    evalPolys (fun x => x) 0 (checker (fun x => x) 4 4) 1 (iterPolygons d) = some v :=
  c77_exact tiny_size _ goSort_ok (by norm_num) (by norm_num) (N := 4) (by norm_num) (by norm_num) tiny_recorded (p := [false, true]) (by decide)

/-- The polygon fitness of an 8 x 8 checkerboard in IEEE arithmetic. -/
def smallPoly : Fun V (List Pt) := vorFun (gridGeo ieee 8 8) ieee goSort 0 (checker (rne 53) 8 8) 3 noVBufs

/-- The constructor of the modified algorithm on it, evaluating member 0 first, and a step after that. -/
def smallPolyNew : Option (Algo V (List Pt)) := playNewMod smallPoly selSorter 1 trio2 4 (inOrder 2 (fun _ => 3) [0, 1])

theorem trio2_poly_setting : VorSetting (gridGeo ieee 8 8) ieee goSort (checker (rne 53) 8 8) 3 3 selSorter 1 trio2 4 := by
  refine vor_setting_ieee ⟨by norm_num, by norm_num, by norm_num, by norm_num, by norm_num⟩ (by decide) goSort_ok _ (by norm_num) (by norm_num) (by norm_num)
    selSorter_ok (by norm_num) le_rfl (by decide) ?_
  decide +kernel

/-- A step of the modified algorithm, evaluating member 1 first. -/
def smallPolyStep : Option (Algo V (List Pt)) :=
  smallPolyNew.bind fun a => playMod smallPoly selSorter 1 moveFirst (inOrder 2 (fun _ => 3) [1, 0]) a

theorem smallPolyNew_front : (smallPolyNew.map fun a => decide (a.pop.length = 3 ∧ a.fit.length = 3 ∧ 0 < a.fit.getD 0 0 ∧ 0 < a.fit.getD 1 0)) = some true := by
  decide +kernel

theorem smallPolyStep_some : smallPolyStep.isSome = true := by
  decide +kernel

/-- An execution in IEEE arithmetic and a step to which the theorems on the modified algorithm apply. -/
example : ∃ (a : Algo V (List Pt)) (l : List Who) (a' : Algo V (List Pt)), PosExec smallPoly selSorter 1 Unit01 3 trio2 4 0 a ∧ FrontPos 1 a ∧
    ModStep smallPoly selSorter 1 moveFirst l a a' ∧ a.bestFit ≤ a'.bestFit := by
  have h := smallPolyNew_front
  obtain ⟨a', hs⟩ := Option.isSome_iff_exists.mp smallPolyStep_some
  unfold smallPolyStep at hs
  rw [Option.bind_eq_some_iff] at hs
  obtain ⟨a, e, hs⟩ := hs
  rw [e] at h
  simp only [Option.map_some, Option.some.injEq, decide_eq_true_eq] at h
  obtain ⟨h1, h2, h3, h4⟩ := h
  have h0 : PosExec smallPoly selSorter 1 Unit01 3 trio2 4 0 a := .new (playNewMod_ok e)
  have hF : FrontPos 1 a := by
    intro i hi
    rw [h1] at hi
    have hi' : i = 0 ∨ i = 1 := by omega
    have hg : a.fit[i]? = some (a.fit.getD i 0) := by
      rw [List.getD_eq_getElem?_getD, List.getElem?_eq_getElem (by omega)]; rfl
    refine ⟨_, hg, ?_⟩
    rcases hi' with rfl | rfl
    · exact h3
    · exact h4
  exact ⟨a, _, a', h0, hF, playMod_ok hs, c42_modified_polygons_partial trio2_poly_setting (by decide) h0 hF (moveFirst_ok 3) (playMod_ok hs)⟩

end Verif.Props

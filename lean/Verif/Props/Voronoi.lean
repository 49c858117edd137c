import Verif.Props.Delaunay
import Verif.Vor.Batch

/-!
# Properties of the incremental Voronoi diagram (C22-C24, C67-C69)

`vExec g F srt w h ops = some v` says that the calls `ops` on a new diagram of a `w` x `h` image end, without a panic, in the state
`v`.  `g` is the geometry of the grid, `F` the float operations, `srt` the library sort.  `v.pm.flatten` are the stored polygons,
with their points.

`exactOps` is arithmetic without rounding.
-/

namespace Verif.Props

open Verif.Tri Verif.Spec Verif.Float Verif.Vor
open Verif.Incr hiding Entry

variable {g g' : Geo} {F : FloatOps} {srt : Sorter} {w h : Nat} {ops ops' : List Op} {s s' : Multiset Pt} {m m' : Nat} {v v' : V}

/-- Assumptions on sizes and float arithmetic: those for the triangulation, and that float64 operations round to 53 bits. -/
structure VArith (g : Geo) (F : FloatOps) (w h : Nat) (ops : List Op) : Prop where
  tri : Arith g F.r64 w h ops
  rnd : Rnd 53 F.r64

/-- The code with IEEE arithmetic meets the assumptions on images up to 4096 pixels. -/
theorem varith_ieee (k : SizeOk w h) (h1 : side w h ≤ 4096) :
    VArith (gridGeo ieee w h) ieee w h ops := ⟨arith_ieee k h1, rne_rnd (by norm_num)⟩

/-- Arithmetic without rounding, but with the square root of the code. -/
def exactOps : FloatOps := ⟨fun x => x, fun x => x, sqrt64⟩

theorem exactOps_exact : Exact exactOps := ⟨fun _ => rfl, fun _ => rfl⟩

/-- Without rounding all sizes up to 8191 qualify. -/
theorem varith_exact (k : SizeOk w h) : VArith (gridGeo exactOps w h) exactOps w h ops := by
  refine ⟨⟨k, (gridGeo_ok (p := 28) ⟨id_rnd 53, id_rnd 28, sqrt64_ok⟩ k ?_).mono fun _ _ => trivial, fun _ => faithful_id _⟩, id_rnd 53⟩
  refine axis_rnd (p := 28) ⟨id_rnd 53, id_rnd 28, sqrt64_ok⟩ (by have := (side_bounds k).1; omega) ?_
  push_cast
  have : (side w h : ℚ) ≤ 8191 := by
    have : side w h ≤ 8191 := max_le k.w2 k.h2
    exact_mod_cast this
  rw [div_le_iff₀ (by norm_num)]
  norm_num
  linarith

theorem VArith.spec (A : VArith g F w h ops) (H : Hist w h ops s m) :
    (∃ v, vExec g F srt w h ops = some v ∧ VInv g F srt w h v s) ∨
      (vExec g F srt w h ops = none ∧ ∃ ops' s' m', ops' <+: ops ∧ Hist w h ops' s' m' ∧ ∃ q ∈ s', ¬ Computable F srt w h s' q) :=
  vExec_spec A.tri.size A.rnd A.tri.geo A.tri.score H

theorem VArith.inv (A : VArith g F w h ops) (H : Hist w h ops s m) (e : vExec g F srt w h ops = some v) : VInv g F srt w h v s := by
  rcases A.spec (srt := srt) H with ⟨v', e', I⟩ | ⟨e', -⟩
  · rw [e] at e'; cases e'; exact I
  · rw [e] at e'; cases e'

/-- The diagram holds exactly one polygon for every stored point, and none for other points. -/
def OnePolygonEach (v : V) (s : Multiset Pt) : Prop :=
  (v.pm.flatten.map Prod.fst).Nodup ∧ ∀ p, (∃ l, (p, l) ∈ v.pm.flatten) ↔ p ∈ s

theorem one_each (I : VInv g F srt w h v s) : OnePolygonEach v s := by
  obtain ⟨f, f1, f2, f3⟩ := I.rep
  refine ⟨f1.keys, fun p => ⟨?_, fun hp => ?_⟩⟩
  · rintro ⟨l, hl⟩; exact (f2 p l ((f1.flatten p l).mp hl)).1
  · obtain ⟨l, hl⟩ := f3 p hp; exact ⟨l, (f1.flatten p l).mpr hl⟩

theorem no_clash_list {q : Pt} (hn : ¬ CellClash F w h s q) {cs : List FP} (hl : ListsCorners F w h s q cs) :
    ∀ a ∈ cs, ∀ b ∈ cs, a ≠ b → ¬ Clash F q a b := by
  intro a ha b hb hab hc
  obtain ⟨o, ho, rfl⟩ := (hl.2 a).mp ha
  obtain ⟨o', ho', rfl⟩ := (hl.2 b).mp hb
  exact hn ⟨o, o', ho, ho', hab, hc⟩

theorem computable_of (R : Rnd 53 F.r64) (S : SorterOK srt) {q : Pt} (hn : ¬ CellClash F w h s q) : Computable F srt w h s q := by
  intro cs hl
  obtain ⟨r, hr⟩ := cellPoly_unique R S w h hl.1 (no_clash_list hn hl) (cs.any (outside F w h))
  exact ⟨r, hr cs (List.Perm.refl _)⟩

/-! ### C22 -/

/-- **C22** (partial: under `VArith`, and if sorting never panics): every history runs without a panic, that is every lookup in the
polygon map succeeds, and it leaves exactly one polygon for every stored point. -/
theorem c22_lookups_partial (A : VArith g F w h ops) (H : Hist w h ops s m) (hs : ∀ c l, ∃ l', srt c l = some l') :
    ∃ v, vExec g F srt w h ops = some v ∧ OnePolygonEach v s := by
  rcases A.spec (srt := srt) H with ⟨v, e, I⟩ | ⟨-, ops', s', m', -, -, q, -, hc⟩
  · exact ⟨v, e, one_each I⟩
  · refine (hc fun cs _ => ?_).elim
    unfold cellPoly
    obtain ⟨l, hl⟩ := hs (cmp F ((q.x : ℚ), (q.y : ℚ))) cs
    rw [hl]
    cases cs.any (outside F w h) with
    | false => exact ⟨l, rfl⟩
    | true => exact hs _ _

/-- **C22** (partial: under `VArith`): a history runs without a panic and leaves exactly one polygon for every stored point,
provided that at no time two corners of a cell clash. -/
theorem c22_no_clash_partial (A : VArith g F w h ops) (H : Hist w h ops s m) (S : SorterOK srt)
    (hn : ∀ ops' s' m', ops' <+: ops → Hist w h ops' s' m' → ∀ q ∈ s', ¬ CellClash F w h s' q) :
    ∃ v, vExec g F srt w h ops = some v ∧ OnePolygonEach v s := by
  rcases A.spec (srt := srt) H with ⟨v, e, I⟩ | ⟨-, ops', s', m', hp, H', q, hq, hc⟩
  · exact ⟨v, e, one_each I⟩
  · exact (hc (computable_of A.rnd S (hn ops' s' m' hp H' q hq))).elim

/-- A history that ends without a panic leaves exactly one polygon for every stored point. -/
theorem c22_one_each_partial (A : VArith g F w h ops) (H : Hist w h ops s m) (e : vExec g F srt w h ops = some v) :
    OnePolygonEach v s := one_each (A.inv H e)

/-- **C22** without rounding: every history, on an image of any size the code can handle, runs without a panic and leaves exactly
one polygon for every stored point. -/
theorem c22_exact (k : SizeOk w h) (H : Hist w h ops s m) (S : SorterOK srt) :
    ∃ v, vExec (gridGeo exactOps w h) exactOps srt w h ops = some v ∧ OnePolygonEach v s :=
  c22_no_clash_partial (varith_exact k) H S (fun _ _ _ _ _ _ _ => exact_no_clash exactOps_exact w h _ _)

/-- The points of the panicking history. -/
def clashOps : List Op := [.ins ⟨3, 7000⟩, .ins ⟨7, 6952⟩, .ins ⟨198, 7274⟩, .ins ⟨5, 6966⟩]

theorem clash_hist : Hist 400 7300 clashOps {⟨5, 6966⟩, ⟨198, 7274⟩, ⟨7, 6952⟩, ⟨3, 7000⟩} 4 := by
  have h1 := Hist.nil (w := 400) (h := 7300)
  have h2 := h1.ins ⟨3, 7000⟩ ⟨by norm_num, by norm_num, by norm_num, by norm_num⟩ (by decide) (by decide)
  have h3 := h2.ins ⟨7, 6952⟩ ⟨by norm_num, by norm_num, by norm_num, by norm_num⟩ (by decide) (by decide)
  have h4 := h3.ins ⟨198, 7274⟩ ⟨by norm_num, by norm_num, by norm_num, by norm_num⟩ (by decide) (by decide)
  exact h4.ins ⟨5, 6966⟩ ⟨by norm_num, by norm_num, by norm_num, by norm_num⟩ (by decide) (by decide)

/-- **C22 is false** of the code with IEEE arithmetic: inserting four different points into a 400 x 7300 image panics at the fourth,
with the sort of the library, because two circumcentres of the cell of (3, 7000) are stored exactly to the right of the point.  The first
three insertions succeed. -/
theorem c22_panics_false : Hist 400 7300 clashOps {⟨5, 6966⟩, ⟨198, 7274⟩, ⟨7, 6952⟩, ⟨3, 7000⟩} 4 ∧ SorterOK goSort ∧
    vExec (gridGeo ieee 400 7300) ieee goSort 400 7300 clashOps = none ∧
    vExec (gridGeo ieee 400 7300) ieee goSort 400 7300 (clashOps.take 3) ≠ none :=
  ⟨clash_hist, goSort_ok, by decide +kernel, by
    have : (vExec (gridGeo ieee 400 7300) ieee goSort 400 7300 (clashOps.take 3)).isSome = true := by decide +kernel
    intro hn; rw [hn] at this; cases this⟩

/-- The same history without rounding. -/
example : ∃ v, vExec (gridGeo exactOps 400 7300) exactOps goSort 400 7300 clashOps = some v ∧
    OnePolygonEach v {⟨5, 6966⟩, ⟨198, 7274⟩, ⟨7, 6952⟩, ⟨3, 7000⟩} :=
  c22_exact ⟨by norm_num, by norm_num, by norm_num, by norm_num, by norm_num⟩ clash_hist goSort_ok

theorem demo_varith : VArith (gridGeo ieee 40 30) ieee 40 30 demoOps := varith_ieee demo_size (by decide)

/-- A history with insertions, a duplicate and a removal, with IEEE arithmetic, that does not panic. -/
theorem demo_vexec : ∃ v, vExec (gridGeo ieee 40 30) ieee goSort 40 30 demoOps = some v := by
  have : (vExec (gridGeo ieee 40 30) ieee goSort 40 30 demoOps).isSome = true := by decide +kernel
  exact Option.isSome_iff_exists.mp this

example : ∃ v, vExec (gridGeo ieee 40 30) ieee goSort 40 30 demoOps = some v ∧ OnePolygonEach v demoBag :=
  let ⟨v, e⟩ := demo_vexec
  ⟨v, e, c22_one_each_partial demo_varith demo_hist e⟩

/-- No clashes in the state `d`, by computation. -/
def clashFree (g : Geo) (F : FloatOps) (d : D) : Bool :=
  (iterPoints d.pm).all fun q => match iterVertex g d q with
    | none => false
    | some ts => (centres F ts).all fun a => (centres F ts).all fun b =>
      a == b || (let x := F.r64 (a.1 - q.x)
        let y := F.r64 (a.2 - q.y)
        let x' := F.r64 (b.1 - q.x)
        let y' := F.r64 (b.2 - q.y)
        decide (¬ (((x < 0 ∧ x' < 0) ∨ (0 ≤ x ∧ 0 ≤ x' ∧ ¬ (x = 0 ∧ x' = 0))) ∧ F.r64 (x * y') = F.r64 (x' * y))))

theorem no_clash_of (A : VArith g F w h ops) (hc : ∀ pre ∈ ops.inits, ∃ d, exec g F.r64 w h pre = some d ∧ clashFree g F d = true) :
    ∀ ops' s' m', ops' <+: ops → Hist w h ops' s' m' → ∀ q ∈ s', ¬ CellClash F w h s' q := by
  rintro ops' s' m' hp H' q hq ⟨o, o', ho, ho', hne, hcl⟩
  obtain ⟨d, e, hd⟩ := hc ops' ((List.mem_inits _ _).mpr hp)
  have I := ((A.tri.pre hp).inv H' e).1
  obtain ⟨ts, t1, t2⟩ := centres_corners A.tri.size A.rnd (A.tri.pre hp).geo H'.inserted I hq
  have hm : q ∈ iterPoints d.pm := ((iterPoints_spec I.pm).2 q).mpr (Multiset.count_pos.mpr hq)
  have := List.all_eq_true.mp hd q hm
  rw [t1] at this
  have := List.all_eq_true.mp (List.all_eq_true.mp this _ ((t2.2 _).mpr ⟨o, ho, rfl⟩)) _ ((t2.2 _).mpr ⟨o', ho', rfl⟩)
  rw [Bool.or_eq_true, beq_iff_eq] at this
  exact of_decide_eq_true (this.resolve_left hne) hcl

/-- The hypotheses of `c22_no_clash_partial` hold for IEEE arithmetic and this history. -/
theorem demo_no_clash : ∀ ops' s' m', ops' <+: demoOps → Hist 40 30 ops' s' m' → ∀ q ∈ s', ¬ CellClash ieee 40 30 s' q := by
  refine no_clash_of demo_varith ?_
  have : ∀ pre ∈ demoOps.inits, (exec (gridGeo ieee 40 30) (rne 53) 40 30 pre).any (clashFree (gridGeo ieee 40 30) ieee) = true := by
    decide +kernel
  intro pre hp
  have := this pre hp
  rw [Option.any_eq_true] at this
  exact this

example : ∃ v, vExec (gridGeo ieee 40 30) ieee goSort 40 30 demoOps = some v ∧ OnePolygonEach v demoBag :=
  c22_no_clash_partial demo_varith demo_hist goSort_ok demo_no_clash

example : ∃ v, vExec (gridGeo ieee 40 30) ieee (fun _ l => some l) 40 30 demoOps = some v ∧ OnePolygonEach v demoBag :=
  c22_lookups_partial demo_varith demo_hist (fun _ l => ⟨l, rfl⟩)

/-! ### C23 -/

theorem stored_eq (R : Rnd 53 F.r64) (k : SizeOk w h) (I : VInv g F srt w h v s) (S : SorterOK srt) {q : Pt} {l : List FP}
    (hn : ¬ CellClash F w h s q) (hl : (q, l) ∈ v.pm.flatten) {g' : Geo} {Q : Pt → Prop} (G' : GeoOK g' w h Q) {d : D} {s' : Multiset Pt}
    (hQ : ∀ x ∈ s', Q x) (I' : DInv g' w h d s')
    (hs : ∀ x, x ∈ s ↔ x ∈ s') : cellOf g' F srt w h d q = some l := by
  obtain ⟨f, f1, f2, _⟩ := I.rep
  obtain ⟨hq, cs, c1, c2⟩ := f2 q l ((f1.flatten q l).mp hl)
  obtain ⟨cs', c1', c2'⟩ := cellOf_spec srt k R G' hQ I' ((hs q).mp hq)
  have hp : cs'.Perm cs := (List.perm_ext_iff_of_nodup c1'.1 c1.1).mpr fun c => by
    rw [c1'.2, c1.2]
    simp only [corner_congr hs q]
  have ha : cs'.any (outside F w h) = cs.any (outside F w h) := by
    rw [Bool.eq_iff_iff]
    simp only [List.any_eq_true, hp.mem_iff]
  obtain ⟨r, hr⟩ := cellPoly_unique R S w h c1.1 (no_clash_list hn c1) (cs.any (outside F w h))
  rw [hr cs (List.Perm.refl _)] at c2
  cases c2
  rw [c2', ha, hr cs' hp]

/-- **C23** (partial: under `VArith`): the polygon stored for a point is the one `Voronoi` computes from the current
triangulation, unless two corners of its cell clash. -/
theorem c23_recompute_partial (A : VArith g F w h ops) (H : Hist w h ops s m) (e : vExec g F srt w h ops = some v) (S : SorterOK srt)
    {q : Pt} {l : List FP} (hn : ¬ CellClash F w h s q) (hl : (q, l) ∈ v.pm.flatten) : cellOf g F srt w h v.d q = some l :=
  stored_eq A.rnd A.tri.size (A.inv H e) S hn hl A.tri.geo H.inserted (A.inv H e).d (fun _ => Iff.rfl)

/-- **C23** (partial: under `VArith`), the circumcentres: the polygon stored for a point is computed from the same
circumcentres, listed in some order, as a recomputation from the current triangulation.  They are the stored corners of the cell. -/
theorem c23_same_centres_partial (A : VArith g F w h ops) (H : Hist w h ops s m) (e : vExec g F srt w h ops = some v)
    {q : Pt} {l : List FP} (hl : (q, l) ∈ v.pm.flatten) : ∃ cs ts, cellPoly F srt w h q cs (cs.any (outside F w h)) = some l ∧
      iterVertex g v.d q = some ts ∧ (centres F ts).Perm cs ∧ ListsCorners F w h s q cs := by
  have I := A.inv H e
  obtain ⟨f, f1, f2, _⟩ := I.rep
  obtain ⟨hq, cs, c1, c2⟩ := f2 q l ((f1.flatten q l).mp hl)
  obtain ⟨ts, t1, t2⟩ := centres_corners A.tri.size A.rnd A.tri.geo H.inserted I.d hq
  exact ⟨cs, ts, c2, t1, (List.perm_ext_iff_of_nodup t2.1 c1.1).mpr fun c => by rw [t2.2, c1.2], c1⟩

/-- **C23** without rounding. -/
theorem c23_exact (k : SizeOk w h) (H : Hist w h ops s m) (S : SorterOK srt)
    (e : vExec (gridGeo exactOps w h) exactOps srt w h ops = some v) {q : Pt} {l : List FP} (hl : (q, l) ∈ v.pm.flatten) :
    cellOf (gridGeo exactOps w h) exactOps srt w h v.d q = some l :=
  c23_recompute_partial (varith_exact k) H e S (exact_no_clash exactOps_exact w h s q) hl

example : ∃ v l, vExec (gridGeo exactOps 40 30) exactOps goSort 40 30 demoOps = some v ∧ (⟨10, 10⟩, l) ∈ v.pm.flatten ∧
    cellOf (gridGeo exactOps 40 30) exactOps goSort 40 30 v.d ⟨10, 10⟩ = some l := by
  obtain ⟨v, e, o⟩ := c22_exact demo_size demo_hist goSort_ok
  obtain ⟨l, hl⟩ := (o.2 ⟨10, 10⟩).mpr (by decide)
  exact ⟨v, l, e, hl, c23_exact demo_size demo_hist goSort_ok e hl⟩

example : ∃ v, vExec (gridGeo ieee 40 30) ieee goSort 40 30 demoOps = some v ∧
    ∀ q l, (q, l) ∈ v.pm.flatten → cellOf (gridGeo ieee 40 30) ieee goSort 40 30 v.d q = some l := by
  obtain ⟨v, e, o⟩ := c22_no_clash_partial demo_varith demo_hist goSort_ok demo_no_clash
  exact ⟨v, e, fun q l hl => c23_recompute_partial demo_varith demo_hist e goSort_ok
    (demo_no_clash _ _ _ (List.prefix_refl _) demo_hist q ((o.2 q).mp ⟨l, hl⟩)) hl⟩

/-! ### C24 -/

/-- **C24**: without rounding, every circumcentre collected for a stored point is at least as near to this point as to any other
stored point. -/
theorem c24_nearest (k : SizeOk w h) (H : Hist w h ops s m) (e : vExec (gridGeo exactOps w h) exactOps srt w h ops = some v) {q : Pt}
    (hq : q ∈ s) : ∃ ts, iterVertex (gridGeo exactOps w h) v.d q = some ts ∧
      ∀ c ∈ centres exactOps ts, ∀ x ∈ s, d2 ⟨c.1, c.2⟩ q ≤ d2 ⟨c.1, c.2⟩ x := by
  have A := varith_exact (ops := ops) k
  obtain ⟨ts, t1, t2⟩ := centres_corners k A.rnd A.tri.geo H.inserted (A.inv H e).d hq
  refine ⟨ts, t1, fun c hc x hx => ?_⟩
  obtain ⟨o, ho, rfl⟩ := (t2.2 c).mp hc
  exact ho.2 x (Or.inl hx)

/-- The same for the triangulation alone, from which the function `Voronoi` collects its circumcentres. -/
theorem c24_nearest_tri (k : SizeOk w h) (H : Hist w h ops s m) {d : D} (e : exec (gridGeo exactOps w h) (fun x => x) w h ops = some d)
    {q : Pt} (hq : q ∈ s) : ∃ ts, iterVertex (gridGeo exactOps w h) d q = some ts ∧
      ∀ c ∈ centres exactOps ts, ∀ x ∈ s, d2 ⟨c.1, c.2⟩ q ≤ d2 ⟨c.1, c.2⟩ x := by
  have A := varith_exact (ops := ops) k
  obtain ⟨ts, t1, t2⟩ := centres_corners k A.rnd A.tri.geo H.inserted (A.tri.inv H e).1 hq
  refine ⟨ts, t1, fun c hc x hx => ?_⟩
  obtain ⟨o, ho, rfl⟩ := (t2.2 c).mp hc
  exact ho.2 x (Or.inl hx)

/-- With any rounding, every circumcentre collected is the stored value of a location with this property (partial: under
`VArith`). -/
theorem c24_stored_partial (A : VArith g F w h ops) (H : Hist w h ops s m) (e : vExec g F srt w h ops = some v) {q : Pt} (hq : q ∈ s) :
    ∃ ts, iterVertex g v.d q = some ts ∧ ∀ c ∈ centres F ts, ∃ o, c = stored F o ∧ ∀ x ∈ s, d2 o q ≤ d2 o x := by
  obtain ⟨ts, t1, t2⟩ := centres_corners A.tri.size A.rnd A.tri.geo H.inserted (A.inv H e).d hq
  refine ⟨ts, t1, fun c hc => ?_⟩
  obtain ⟨o, ho, rfl⟩ := (t2.2 c).mp hc
  exact ⟨o, rfl, fun x hx => ho.2 x (Or.inl hx)⟩

example : ∃ v ts, vExec (gridGeo exactOps 40 30) exactOps goSort 40 30 demoOps = some v ∧
    iterVertex (gridGeo exactOps 40 30) v.d ⟨10, 10⟩ = some ts ∧
      ∀ c ∈ centres exactOps ts, ∀ x ∈ demoBag, d2 ⟨c.1, c.2⟩ ⟨10, 10⟩ ≤ d2 ⟨c.1, c.2⟩ x := by
  obtain ⟨v, e, -⟩ := c22_exact demo_size demo_hist goSort_ok
  obtain ⟨ts, h1, h2⟩ := c24_nearest demo_size demo_hist e (q := ⟨10, 10⟩) (by decide)
  exact ⟨v, ts, e, h1, h2⟩

/-! ### C67 -/

/-- **C67** (partial: under `VArith`): the polygon of a point depends only on the set of stored points, not on the history, unless two
corners of its cell clash. -/
theorem c67_history_independent_partial (A : VArith g F w h ops) (H : Hist w h ops s m) (e : vExec g F srt w h ops = some v)
    (A' : VArith g' F w h ops') (H' : Hist w h ops' s' m') (e' : vExec g' F srt w h ops' = some v') (S : SorterOK srt)
    (hs : ∀ x, x ∈ s ↔ x ∈ s') {q : Pt} {l l' : List FP} (hn : ¬ CellClash F w h s q) (hl : (q, l) ∈ v.pm.flatten)
    (hl' : (q, l') ∈ v'.pm.flatten) : l = l' := by
  have h1 := stored_eq A.rnd A.tri.size (A.inv H e) S hn hl A'.tri.geo H'.inserted (A'.inv H' e').d hs
  have hn' : ¬ CellClash F w h s' q := by
    rintro ⟨o, o', a, b, c⟩
    exact hn ⟨o, o', (corner_congr hs q o).mpr a, (corner_congr hs q o').mpr b, c⟩
  have h2 := c23_recompute_partial A' H' e' S hn' hl'
  rw [h1] at h2
  exact Option.some.inj h2

/-- **C67** without rounding. -/
theorem c67_exact (k : SizeOk w h) (H : Hist w h ops s m) (e : vExec (gridGeo exactOps w h) exactOps srt w h ops = some v)
    (H' : Hist w h ops' s' m') (e' : vExec (gridGeo exactOps w h) exactOps srt w h ops' = some v') (S : SorterOK srt)
    (hs : ∀ x, x ∈ s ↔ x ∈ s') {q : Pt} {l l' : List FP} (hl : (q, l) ∈ v.pm.flatten)
    (hl' : (q, l') ∈ v'.pm.flatten) : l = l' :=
  c67_history_independent_partial (varith_exact k) H e (varith_exact k) H' e' S hs (exact_no_clash exactOps_exact w h s q) hl hl'

/-- Another history leaving the same set of points. -/
def demoOps2 : List Op := [.ins ⟨20, 25⟩, .ins ⟨10, 10⟩, .ins ⟨30, 10⟩]

theorem demo_hist2 : Hist 40 30 demoOps2 {⟨30, 10⟩, ⟨10, 10⟩, ⟨20, 25⟩} 3 := by
  have h1 := Hist.nil (w := 40) (h := 30)
  have h2 := h1.ins ⟨20, 25⟩ ⟨by norm_num, by norm_num, by norm_num, by norm_num⟩ (by decide) (by decide)
  have h3 := h2.ins ⟨10, 10⟩ ⟨by norm_num, by norm_num, by norm_num, by norm_num⟩ (by decide) (by decide)
  exact h3.ins ⟨30, 10⟩ ⟨by norm_num, by norm_num, by norm_num, by norm_num⟩ (by decide) (by decide)

example : ∃ v v' l, vExec (gridGeo exactOps 40 30) exactOps goSort 40 30 demoOps = some v ∧
    vExec (gridGeo exactOps 40 30) exactOps goSort 40 30 demoOps2 = some v' ∧
    (⟨10, 10⟩, l) ∈ v.pm.flatten ∧ (⟨10, 10⟩, l) ∈ v'.pm.flatten := by
  obtain ⟨v, e, o⟩ := c22_exact demo_size demo_hist goSort_ok
  obtain ⟨v', e', o'⟩ := c22_exact demo_size demo_hist2 goSort_ok
  obtain ⟨l, hl⟩ := (o.2 ⟨10, 10⟩).mpr (by decide)
  obtain ⟨l', hl'⟩ := (o'.2 ⟨10, 10⟩).mpr (by decide)
  have : l = l' := c67_exact demo_size demo_hist e demo_hist2 e' goSort_ok (by
    intro x
    simp only [demoBag, Multiset.mem_cons, Multiset.insert_eq_cons, Multiset.mem_singleton]
    tauto) hl hl'
  exact ⟨v, v', l, e, e', hl, this ▸ hl'⟩

/-! ### C68 -/

/-- **C68** (partial: under `VArith`): the function `Voronoi`, applied to the triangulation of the diagram, reports the same
polygons as `IterPolygons`, maybe in a different order, unless corners clash. -/
theorem c68_batch_partial (A : VArith g F w h ops) (H : Hist w h ops s m) (e : vExec g F srt w h ops = some v) (S : SorterOK srt)
    (hn : ∀ q ∈ s, ¬ CellClash F w h s q) : ∃ ls, voronoi g F srt w h v.d = some ls ∧ ls.Perm (iterPolygons v) :=
  voronoi_perm (A.inv H e) fun q l hl =>
    c23_recompute_partial A H e S (hn q (((one_each (A.inv H e)).2 q).mp ⟨l, hl⟩)) hl

/-- **C68** without rounding. -/
theorem c68_exact (k : SizeOk w h) (H : Hist w h ops s m) (e : vExec (gridGeo exactOps w h) exactOps srt w h ops = some v)
    (S : SorterOK srt) : ∃ ls, voronoi (gridGeo exactOps w h) exactOps srt w h v.d = some ls ∧ ls.Perm (iterPolygons v) :=
  c68_batch_partial (varith_exact k) H e S (fun q _ => exact_no_clash exactOps_exact w h s q)

example : ∃ v ls, vExec (gridGeo exactOps 40 30) exactOps goSort 40 30 demoOps = some v ∧
    voronoi (gridGeo exactOps 40 30) exactOps goSort 40 30 v.d = some ls ∧ ls.Perm (iterPolygons v) := by
  obtain ⟨v, e, -⟩ := c22_exact demo_size demo_hist goSort_ok
  obtain ⟨ls, h1, h2⟩ := c68_exact demo_size demo_hist e goSort_ok
  exact ⟨v, ls, e, h1, h2⟩

/-! ### C69 -/

/-- **C69 is false**, one point: no polygon is reported for a diagram holding one point. -/
theorem c69_single_false : (vExec (gridGeo ieee 40 30) ieee goSort 40 30 [.ins ⟨20, 15⟩]).map iterPolygons = some [] := by
  decide +kernel

/-- **C69 is false**, two points: both reported polygons are the line between the points, and have no area. -/
theorem c69_two_false : (vExec (gridGeo ieee 40 30) ieee goSort 40 30 [.ins ⟨10, 15⟩, .ins ⟨30, 15⟩]).map iterPolygons =
    some [[(20, 0), (20, 30)], [(20, 0), (20, 30)]] := by
  decide +kernel

/-- **C69 is false**, four points: all vertices of the reported polygons are above y = 28, but (1, 29) is a location of the image. -/
theorem c69_cover_false : (vExec (gridGeo ieee 40 30) ieee goSort 40 30
    [.ins ⟨10, 10⟩, .ins ⟨30, 10⟩, .ins ⟨20, 25⟩, .ins ⟨20, 15⟩]).map (fun v => decide ((iterPolygons v).length = 4 ∧
      ∀ l ∈ iterPolygons v, ∀ c ∈ l, c.2 < 28)) = some true := by
  decide +kernel

/-- **C69**, what does hold (partial: under `VArith`): at most one polygon is reported for each stored point. -/
theorem c69_count_partial (A : VArith g F w h ops) (H : Hist w h ops s m) (e : vExec g F srt w h ops = some v) :
    (iterPolygons v).length ≤ s.dedup.card := by
  have I := A.inv H e
  obtain ⟨h1, h2⟩ := one_each I
  refine (List.length_filter_le _ _).trans ?_
  rw [List.length_map, ← List.length_map (f := Prod.fst), ← Multiset.coe_card]
  refine Multiset.card_le_card ((Multiset.le_iff_subset (Multiset.coe_nodup.mpr h1)).mpr fun q hq => ?_)
  rw [Multiset.mem_dedup]
  obtain ⟨⟨q', l⟩, hm, rfl⟩ := List.mem_map.mp (Multiset.mem_coe.mp hq)
  exact (h2 _).mp ⟨l, hm⟩

example : ∃ v, vExec (gridGeo ieee 40 30) ieee goSort 40 30 demoOps = some v ∧ (iterPolygons v).length ≤ 3 := by
  obtain ⟨v, e⟩ := demo_vexec
  exact ⟨v, e, (c69_count_partial demo_varith demo_hist e).trans (by decide)⟩

end Verif.Props

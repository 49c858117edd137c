import Verif.Incr.Observe
import Verif.Incr.Extra
import Verif.Incr.Score
import Verif.Incr.GridLarge2

/-!
# Properties of the incremental Delaunay triangulation (C01-C14)

`exec g fl w h ops = some d` says that the calls `ops` on a new triangulation of a `w` x `h` image
end, without a panic, in the state `d`.  `g` is the geometry of the grid and `fl` the rounding of
scores.  `Hist w h ops s m` (Spec/Plane) says that the calls are admissible and leave the bag `s`.

The theorems marked `_partial` assume `Arith`: what float arithmetic has to provide.
`arith_ieee` discharges it for IEEE arithmetic on images up to 4096 pixels, `arith_ieee_insert`
without removals up to 5000 pixels for points off the rows of the grid,
`arith_wide` for arithmetic with 28-bit floats in the grid and exact scores up to
8191 pixels.
-/

namespace Verif.Props

open Verif.Tri Verif.Spec Verif.Incr Verif.Float

variable {g g' : Geo} {fl fl' : ℚ → ℚ} {w h : Nat} {ops ops' : List Op} {s s' : Multiset Pt} {m m' : Nat} {d d' : D}

/-- Assumptions on sizes and float arithmetic: the grid box of an inserted point is covered by every circle
around the point, and rounding keeps the order of scores up to a small relative error. -/
structure Arith (g : Geo) (fl : ℚ → ℚ) (w h : Nat) (ops : List Op) : Prop where
  size : SizeOk w h
  geo : GeoOK g w h (fun p => Op.ins p ∈ ops)
  score : (∃ p, Op.rem p ∈ ops) → Faithful fl (side w h)

/-- The code with IEEE arithmetic meets the assumptions on images up to 4096 pixels. -/
theorem arith_ieee (k : SizeOk w h) (h1 : side w h ≤ 4096) :
    Arith (gridGeo ieee w h) (rne 53) w h ops :=
  ⟨k, (ieee_grid_large k (by omega)).mono fun _ _ => Or.inl h1,
    fun _ => faithful_rnd (rne_rnd (by norm_num)) (by omega)⟩

/-- On larger images it does so, without removals, if no point is inserted on one of the nine inner rows of the grid,
that is at a height of a multiple of a tenth of the image.  If the height of the image is coprime to 10 there is no
such point.  (Without removals nothing is required of the scores.) -/
theorem arith_ieee_insert (k : SizeOk w h) (h1 : side w h ≤ 5000) (hr : ∀ p, Op.ins p ∈ ops → OffRows h p)
    (hi : ∀ p, Op.rem p ∉ ops) : Arith (gridGeo ieee w h) (rne 53) w h ops :=
  ⟨k, (ieee_grid_large k h1).mono fun p hp => Or.inr (hr p hp), fun ⟨p, hp⟩ => absurd hp (hi p)⟩

/-- An image whose height is coprime to 10 has no points on the inner rows of the grid. -/
theorem offRows_coprime (hc : Nat.Coprime h 10) (p : Pt) : OffRows h p := by
  intro h0 h1 hd
  obtain ⟨y, hy⟩ := Int.eq_ofNat_of_zero_le h0.le
  rw [hy] at h0 h1 hd
  have hd' : h ∣ 10 * y := by exact_mod_cast hd
  have := Nat.le_of_dvd (by omega) (hc.dvd_of_dvd_mul_left hd')
  omega

example : Arith (gridGeo ieee 5000 3001) (rne 53) 5000 3001 [.ins ⟨0, 0⟩, .ins ⟨4999, 2999⟩] :=
  arith_ieee_insert ⟨by norm_num, by norm_num, by norm_num, by norm_num, by norm_num⟩ (by decide)
    (fun p _ => offRows_coprime (by decide) p) (by simp)

/-- With 28-bit instead of 24-bit floats in the grid, and exact scores, all sizes up to 8191 qualify. -/
theorem arith_wide (k : SizeOk w h) : Arith (gridGeo ⟨rne 53, rne 28, sqrt64⟩ w h) (fun x => x) w h ops := by
  refine ⟨k, (gridGeo_ok (p := 28) ⟨rne_rnd (by norm_num), rne_rnd (by norm_num), sqrt64_ok⟩ k ?_).mono fun _ _ => trivial, fun _ => faithful_id _⟩
  refine axis_rnd (p := 28) ⟨rne_rnd (by norm_num), rne_rnd (by norm_num), sqrt64_ok⟩ (by have := (side_bounds k).1; omega) ?_
  push_cast
  have : (side w h : ℚ) ≤ 8191 := by
    have : side w h ≤ 8191 := max_le k.w2 k.h2
    exact_mod_cast this
  rw [div_le_iff₀ (by norm_num)]
  norm_num
  linarith

theorem Arith.pre (A : Arith g fl w h ops) {pre : List Op} (hp : pre <+: ops) : Arith g fl w h pre :=
  ⟨A.size, A.geo.mono fun _ h => hp.subset h, fun ⟨p, h⟩ => A.score ⟨p, hp.subset h⟩⟩

theorem Arith.all (A : ∀ ops, Arith g fl w h ops) : GeoOK g w h (fun _ => True) :=
  ⟨(A []).geo.cell, fun a b c p k ha hb hc hp _ => (A [Op.ins p]).geo.cover a b c p k ha hb hc hp (by simp)⟩

theorem Arith.inv (A : Arith g fl w h ops) (H : Hist w h ops s m) (e : exec g fl w h ops = some d) :
    DInv g w h d s ∧ d.tris.length = 2 * m + 1 := by
  obtain ⟨d', e', i, l⟩ := exec_spec A.size A.geo A.score H
  rw [e] at e'
  cases e'
  exact ⟨i, l⟩

/-! ### A concrete history meeting all hypotheses -/

/-- Four insertions, a duplicate, and the removal of an inner point. -/
def demoOps : List Op :=
  [.ins ⟨10, 10⟩, .ins ⟨30, 10⟩, .ins ⟨20, 25⟩, .ins ⟨20, 15⟩, .ins ⟨10, 10⟩, .rem ⟨20, 15⟩]

/-- The points it leaves. -/
def demoBag : Multiset Pt := {⟨10, 10⟩, ⟨30, 10⟩, ⟨20, 25⟩, ⟨10, 10⟩}

theorem demo_size : SizeOk 40 30 := ⟨by norm_num, by norm_num, by norm_num, by norm_num, by norm_num⟩

theorem demo_arith : Arith (gridGeo ieee 40 30) (rne 53) 40 30 demoOps :=
  arith_ieee demo_size (by decide)

theorem demo_hist : Hist 40 30 demoOps demoBag 4 := by
  have h1 := Hist.nil (w := 40) (h := 30)
  have h2 := h1.ins ⟨10, 10⟩ ⟨by norm_num, by norm_num, by norm_num, by norm_num⟩ (by decide) (by decide)
  have h3 := h2.ins ⟨30, 10⟩ ⟨by norm_num, by norm_num, by norm_num, by norm_num⟩ (by decide) (by decide)
  have h4 := h3.ins ⟨20, 25⟩ ⟨by norm_num, by norm_num, by norm_num, by norm_num⟩ (by decide) (by decide)
  have h5 := h4.ins ⟨20, 15⟩ ⟨by norm_num, by norm_num, by norm_num, by norm_num⟩ (by decide) (by decide)
  have h6 := h5.ins ⟨10, 10⟩ ⟨by norm_num, by norm_num, by norm_num, by norm_num⟩ (by decide) (by decide)
  have h7 := h6.rem ⟨20, 15⟩ (by decide)
  have e1 : ((⟨10, 10⟩ ::ₘ ⟨20, 15⟩ ::ₘ ⟨20, 25⟩ ::ₘ ⟨30, 10⟩ ::ₘ ⟨10, 10⟩ ::ₘ (0 : Multiset Pt)).erase ⟨20, 15⟩) = demoBag := by
    decide
  rw [e1] at h7
  exact h7

/-- The history runs without a panic on the model of the code with IEEE arithmetic. -/
theorem demo_exec : ∃ d, exec (gridGeo ieee 40 30) (rne 53) 40 30 demoOps = some d :=
  let ⟨d, e, _⟩ := exec_spec demo_arith.size demo_arith.geo demo_arith.score demo_hist
  ⟨d, e⟩

/-! ### C01 -/

/-- **C01** (partial: under `Arith`): no stored point is strictly inside the circumcircle of a
triangle of the triangulation. -/
theorem c01_empty_circles_partial (A : Arith g fl w h ops) (H : Hist w h ops s m)
    (e : exec g fl w h ops = some d) : ∀ t ∈ live d, ∀ p ∈ s, ¬ InsideCircle t p := by
  obtain ⟨I, -⟩ := A.inv H e
  intro t ht p hp hin
  rw [inside_iff (I.nondeg ht)] at hin
  exact absurd (I.inv.del _ (List.mem_map_of_mem ht) _ (Or.inl ⟨p, hp, rfl⟩)) (not_le.mpr hin)

/-- The same for the triangles reported by `IterTriangles`. -/
theorem c01_iter_partial (A : Arith g fl w h ops) (H : Hist w h ops s m)
    (e : exec g fl w h ops = some d) : ∀ t ∈ iterTriangles d, ∀ p ∈ s, ¬ InsideCircle t p := by
  intro t ht
  exact c01_empty_circles_partial A H e t ((((A.inv H e).1).iter_iff A.size t).mp ht).1

example : ∃ d, exec (gridGeo ieee 40 30) (rne 53) 40 30 demoOps = some d ∧
    ∀ t ∈ live d, ∀ p ∈ demoBag, ¬ InsideCircle t p :=
  let ⟨d, e⟩ := demo_exec
  ⟨d, e, c01_empty_circles_partial demo_arith demo_hist e⟩

example : ∃ d, exec (gridGeo ieee 40 30) (rne 53) 40 30 demoOps = some d ∧
    ∀ t ∈ iterTriangles d, ∀ p ∈ demoBag, ¬ InsideCircle t p :=
  let ⟨d, e⟩ := demo_exec
  ⟨d, e, c01_iter_partial demo_arith demo_hist e⟩

/-! ### C02 -/

/-- **C02** (partial: under `Arith`): triangles have nonzero area, no location is owned by two of
them and no location is in the interior of two of them. -/
theorem c02_no_overlap_partial (A : Arith g fl w h ops) (H : Hist w h ops s m)
    (e : exec g fl w h ops = some d) :
    (∀ t ∈ live d, NonDegenerate t) ∧
    (live d).Pairwise (fun t u => (∀ q, ¬ (Owns t q ∧ Owns u q)) ∧ ∀ q, ¬ (Interior t q ∧ Interior u q)) := by
  obtain ⟨I, -⟩ := A.inv H e
  refine ⟨fun t ht => I.nondeg ht, ?_⟩
  have hd := List.pairwise_map.mp I.inv.disjoint
  refine hd.imp_of_mem ?_
  intro t u ht hu hdis
  constructor
  · rintro q ⟨h1, h2⟩
    exact hdis q ⟨(owns_iff (I.nondeg ht) q).mp h1, (owns_iff (I.nondeg hu) q).mp h2⟩
  · rintro q ⟨h1, h2⟩
    have a := (interior_iff (I.nondeg ht) q).mp h1
    have b := (interior_iff (I.nondeg hu) q).mp h2
    exact hdis q ⟨.of_interior a.1 a.2.1 a.2.2, .of_interior b.1 b.2.1 b.2.2⟩

example : ∃ d, exec (gridGeo ieee 40 30) (rne 53) 40 30 demoOps = some d ∧ ∀ t ∈ live d, NonDegenerate t :=
  let ⟨d, e⟩ := demo_exec
  ⟨d, e, (c02_no_overlap_partial demo_arith demo_hist e).1⟩

/-! ### C03 -/

theorem super_nondeg (k : SizeOk w h) : NonDegenerate (newSuperTriangle w h) :=
  (nondeg_iff _).mpr (super_norm k).2

/-- **C03** (partial: under `Arith`): the triangles partition the bounding triangle: a location is
owned by the bounding triangle if and only if it is owned by a triangle of the triangulation, and then
by exactly one. -/
theorem c03_no_holes_partial (A : Arith g fl w h ops) (H : Hist w h ops s m)
    (e : exec g fl w h ops = some d) (q : P2) :
    (Owns (newSuperTriangle w h) q ↔ ∃ t ∈ live d, Owns t q) ∧
    (Owns (newSuperTriangle w h) q → ∃! t, t ∈ live d ∧ Owns t q) := by
  obtain ⟨I, -⟩ := A.inv H e
  have ex : Owns (newSuperTriangle w h) q → ∃ t ∈ live d, Owns t q := by
    intro hq
    obtain ⟨T, hT, hT2⟩ := I.inv.exists_half ((owns_iff (super_nondeg A.size) q).mp hq)
    obtain ⟨t, ht, rfl⟩ := List.mem_map.mp hT
    exact ⟨t, ht, (owns_iff (I.nondeg ht) q).mpr hT2⟩
  refine ⟨⟨ex, ?_⟩, ?_⟩
  · rintro ⟨t, ht, hq⟩
    rw [owns_iff (super_nondeg A.size)]
    have hpos : 0 < ((live d).map norm).countP (fun t => HalfOpen t q) :=
      List.countP_pos_iff.mpr ⟨norm t, List.mem_map_of_mem ht, by
        simpa using (owns_iff (I.nondeg ht) q).mp hq⟩
    rw [partition I.inv.sccw I.inv.ccw I.inv.chain q] at hpos
    by_contra hn
    rw [if_neg hn] at hpos
    exact absurd hpos (lt_irrefl _)
  · intro hq
    obtain ⟨t, ht, ho⟩ := ex hq
    refine ⟨t, ⟨ht, ho⟩, ?_⟩
    rintro u ⟨hu, hou⟩
    by_contra hne
    have hp : (live d).Pairwise (fun t u => ∀ q, ¬ (Owns t q ∧ Owns u q)) :=
      (c02_no_overlap_partial A H e).2.imp And.left
    have : Std.Symm (fun t u : Tri => ∀ q, ¬ (Owns t q ∧ Owns u q)) := ⟨fun a b hab q hq => hab q hq.symm⟩
    exact hp.forall hu ht hne q ⟨hou, ho⟩

example : ∃ d, exec (gridGeo ieee 40 30) (rne 53) 40 30 demoOps = some d ∧
    (Owns (newSuperTriangle 40 30) ⟨-50, 0⟩ ↔ ∃ t ∈ live d, Owns t ⟨-50, 0⟩) :=
  let ⟨d, e⟩ := demo_exec
  ⟨d, e, (c03_no_holes_partial demo_arith demo_hist e ⟨-50, 0⟩).1⟩

theorem owns_of_interior {t : Tri} (hn : NonDegenerate t) {q : P2} (hq : Interior t q) : Owns t q := by
  have a := (interior_iff hn q).mp hq
  exact (owns_iff hn q).mpr (.of_interior a.1 a.2.1 a.2.2)

/-- **C03**, image locations: every location of the image is owned by exactly one triangle. -/
theorem c03_image_partial (A : Arith g fl w h ops) (H : Hist w h ops s m)
    (e : exec g fl w h ops = some d) (q : P2) (x1 : 0 ≤ q.x) (x2 : q.x ≤ w) (y1 : 0 ≤ q.y) (y2 : q.y ≤ h) :
    ∃! t, t ∈ live d ∧ Owns t q := by
  have k := A.size
  have := k.w2; have := k.h2
  exact (c03_no_holes_partial A H e q).2 (owns_of_interior (super_nondeg k)
    (super_contains k.w1 k.h1 (by omega) (by omega) k.two x1 x2 y1 y2))

example : ∃ d, exec (gridGeo ieee 40 30) (rne 53) 40 30 demoOps = some d ∧
    ∃! t, t ∈ live d ∧ Owns t ⟨41 / 2, 101 / 7⟩ :=
  let ⟨d, e⟩ := demo_exec
  ⟨d, e, c03_image_partial demo_arith demo_hist e ⟨41 / 2, 101 / 7⟩ (by norm_num) (by norm_num) (by norm_num)
    (by norm_num)⟩

/-! ### C04 -/

/-- **C04** (partial: under `Arith`): the vertices are the stored points and the bounding vertices;
`IterTriangles` reports exactly the triangles whose vertices are all stored points. -/
theorem c04_vertices_partial (A : Arith g fl w h ops) (H : Hist w h ops s m)
    (e : exec g fl w h ops = some d) :
    (∀ v, (∃ t ∈ live d, IsVertex t v) ↔ v ∈ s ∨ IsVertex (newSuperTriangle w h) v) ∧
    (∀ t, t ∈ iterTriangles d ↔ t ∈ live d ∧ t.a ∈ s ∧ t.b ∈ s ∧ t.c ∈ s) := by
  obtain ⟨I, -⟩ := A.inv H e
  exact ⟨I.vertex_iff, I.iter_iff A.size⟩

example : ∃ d, exec (gridGeo ieee 40 30) (rne 53) 40 30 demoOps = some d ∧ ∃ t ∈ live d, IsVertex t ⟨20, 25⟩ :=
  let ⟨d, e⟩ := demo_exec
  ⟨d, e, ((c04_vertices_partial demo_arith demo_hist e).1 _).mpr (Or.inl (by decide))⟩

/-! ### C05 -/

/-- **C05** (partial: under `Arith`): `HasPoint p` does not panic and says whether `p` was inserted
more often than removed. -/
theorem c05_hasPoint_partial (A : Arith g fl w h ops) (H : Hist w h ops s m)
    (e : exec g fl w h ops = some d) {p : Pt} (hp : InImg w h p) :
    hasPoint g d p = some (decide (ops.count (Op.rem p) < ops.count (Op.ins p))) := by
  obtain ⟨I, -⟩ := A.inv H e
  rw [I.hasPoint_spec A.size A.geo H.inserted hp, Option.some_inj, decide_eq_decide, ← Multiset.count_pos]
  have := H.count p
  omega

example : ∃ d, exec (gridGeo ieee 40 30) (rne 53) 40 30 demoOps = some d ∧
    hasPoint (gridGeo ieee 40 30) d ⟨20, 15⟩ = some false ∧ hasPoint (gridGeo ieee 40 30) d ⟨10, 10⟩ = some true := by
  obtain ⟨d, e⟩ := demo_exec
  refine ⟨d, e, ?_, ?_⟩
  · rw [c05_hasPoint_partial demo_arith demo_hist e ⟨by norm_num, by norm_num, by norm_num, by norm_num⟩]; decide
  · rw [c05_hasPoint_partial demo_arith demo_hist e ⟨by norm_num, by norm_num, by norm_num, by norm_num⟩]; decide

/-! ### C06, C07 -/

/-- **C06** (partial: under `Arith` for the history including this insertion, and within the capacities of uint16): `Insert` of an image point
succeeds after every admissible history. -/
theorem c06_insert_ok_partial {p : Pt} (A : Arith g fl w h (ops ++ [Op.ins p])) (H : Hist w h ops s m)
    (e : exec g fl w h ops = some d) (hp : InImg w h p) (hc : s.count p < 65535)
    (hd : (p ::ₘ s).dedup.card ≤ 32767) : ∃ d', insert g d p = some d' := by
  obtain ⟨d', e', -⟩ := exec_spec A.size A.geo A.score (H.ins p hp hc hd)
  rw [exec_snoc, e] at e'
  exact ⟨d', e'⟩

/-- **C07** (partial: under `Arith` for the history including this removal): `Remove` of a stored point
succeeds after every admissible history. -/
theorem c07_remove_ok_partial {p : Pt} (A : Arith g fl w h (ops ++ [Op.rem p])) (H : Hist w h ops s m)
    (e : exec g fl w h ops = some d) (hp : p ∈ s) : ∃ d', remove g fl d p = some d' := by
  obtain ⟨d', e', -⟩ := exec_spec A.size A.geo A.score (H.rem p hp)
  rw [exec_snoc, e] at e'
  exact ⟨d', e'⟩

/-- Both together: an admissible history never panics. -/
theorem c06_c07_run_ok_partial (A : Arith g fl w h ops) (H : Hist w h ops s m) :
    ∃ d, exec g fl w h ops = some d :=
  let ⟨d, e, _⟩ := exec_spec A.size A.geo A.score H
  ⟨d, e⟩

example : ∃ d, exec (gridGeo ieee 40 30) (rne 53) 40 30 demoOps = some d ∧
    (∃ d', insert (gridGeo ieee 40 30) d ⟨0, 30⟩ = some d') ∧ ∃ d', remove (gridGeo ieee 40 30) (rne 53) d ⟨30, 10⟩ = some d' := by
  obtain ⟨d, e⟩ := demo_exec
  refine ⟨d, e, c06_insert_ok_partial (arith_ieee demo_size (by decide)) demo_hist e ⟨by norm_num, by norm_num, by norm_num, by norm_num⟩
    (by decide) (by decide), c07_remove_ok_partial (arith_ieee demo_size (by decide)) demo_hist e (by decide)⟩

/-! ### C08 -/

/-- **C08** (partial: under `Arith`): `NumPoints` is insertions minus removals. -/
theorem c08_numPoints_partial (A : Arith g fl w h ops) (H : Hist w h ops s m)
    (e : exec g fl w h ops = some d) :
    numPoints d = (ops.countP Op.isIns : Int) - ops.countP Op.isRem := by
  obtain ⟨I, -⟩ := A.inv H e
  have := H.card
  unfold numPoints
  rw [I.np]
  omega

/-- **C08**: removing one of several copies changes no triangle (no assumption on floats). -/
theorem c08_remove_duplicate {c : Pt → Nat} (P : PMRep d.pm c) {p : Pt} (hp : 1 < c p) :
    ∃ d', remove g fl d p = some d' ∧ d'.tris = d.tris ∧ d'.free = d.free ∧ d'.cells = d.cells ∧
      d'.numPoints = d.numPoints - 1 := by
  obtain ⟨pm', h1, -⟩ := pmRemove_spec P (p := p) (by omega)
  unfold remove
  simp only [h1, Option.bind_eq_bind, Option.bind_some]
  have : c p - 1 ≠ 0 := by omega
  rw [if_pos this]
  exact ⟨_, rfl, rfl, rfl, rfl, rfl⟩

example : ∃ d d', exec (gridGeo ieee 40 30) (rne 53) 40 30 demoOps = some d ∧
    remove (gridGeo ieee 40 30) (rne 53) d ⟨10, 10⟩ = some d' ∧ d'.tris = d.tris ∧ d'.free = d.free := by
  obtain ⟨d, e⟩ := demo_exec
  obtain ⟨d', h1, h2, h3, -⟩ := c08_remove_duplicate (g := gridGeo ieee 40 30) (fl := rne 53) (demo_arith.inv demo_hist e).1.pm (p := ⟨10, 10⟩) (by decide)
  exact ⟨d, d', e, h1, h2, h3⟩

/-- **C08**: in terms of histories. -/
theorem c08_duplicate_partial (A : Arith g fl w h ops) (H : Hist w h ops s m)
    (e : exec g fl w h ops = some d) {p : Pt} (hp : 1 < s.count p) :
    ∃ d', remove g fl d p = some d' ∧ d'.tris = d.tris ∧ iterTriangles d' = iterTriangles d := by
  obtain ⟨I, -⟩ := A.inv H e
  obtain ⟨pm', h1, -⟩ := pmRemove_spec I.pm (p := p) (by omega)
  unfold remove
  simp only [h1, Option.bind_eq_bind, Option.bind_some]
  have : s.count p - 1 ≠ 0 := by omega
  rw [if_pos this]
  exact ⟨_, rfl, rfl, rfl⟩

example : ∃ d, exec (gridGeo ieee 40 30) (rne 53) 40 30 demoOps = some d ∧ numPoints d = 4 ∧
    ∃ d', remove (gridGeo ieee 40 30) (rne 53) d ⟨10, 10⟩ = some d' ∧ d'.tris = d.tris := by
  obtain ⟨d, e⟩ := demo_exec
  refine ⟨d, e, ?_, ?_⟩
  · rw [c08_numPoints_partial demo_arith demo_hist e]; decide
  · obtain ⟨d', h1, h2, -⟩ := c08_duplicate_partial demo_arith demo_hist e (p := ⟨10, 10⟩) (by decide)
    exact ⟨d', h1, h2⟩

/-! ### C09, C10 -/

/-- **C09** (partial: under `Arith`): two histories leaving the same set of points give the same
circumcircles, and in general position the same triangles. -/
theorem c09_history_independent_partial (A : Arith g fl w h ops) (H : Hist w h ops s m)
    (e : exec g fl w h ops = some d) (A' : Arith g' fl' w h ops') (H' : Hist w h ops' s' m')
    (e' : exec g' fl' w h ops' = some d') (hs : ∀ p, p ∈ s ↔ p ∈ s') :
    (∀ t ∈ live d, ∃ t' ∈ live d', ∃ o, Centre t o ∧ Centre t' o ∧ d2 o t.a = d2 o t'.a) ∧
    (GeneralPosition (fun v => v ∈ s ∨ IsVertex (newSuperTriangle w h) v) →
      ((live d).map verts).Perm ((live d').map verts) ∧
      ((iterTriangles d).map verts).Perm ((iterTriangles d').map verts)) := by
  obtain ⟨I, -⟩ := A.inv H e
  obtain ⟨I', -⟩ := A'.inv H' e'
  exact ⟨fun t ht => I.same_circles I' hs ht, fun gp => ⟨I.same_perm I' hs gp, I.same_iter A.size I' hs gp⟩⟩

/-- Without general position the triangles may differ: the two orders of inserting the corners of a
square choose different diagonals, so "same circumcircles" cannot be strengthened. -/
def squareOps (l : List Pt) : List Op := l.map Op.ins

/-- A coarse grid with a single box meets the assumptions; used for evaluation in the kernel. -/
def oneBox : Geo := ⟨fun _ _ _ x y => x == 0 && y == 0, fun _ => some (0, 0)⟩

theorem oneBox_ok {Q : Pt → Prop} : GeoOK oneBox w h Q :=
  ⟨fun _ _ => ⟨(0, 0), rfl⟩, fun _ _ _ _ _ _ _ _ _ _ _ _ _ hk => by cases hk; rfl⟩

theorem c09_square : (exec oneBox id 40 30 (squareOps [⟨10, 10⟩, ⟨20, 10⟩, ⟨20, 20⟩, ⟨10, 20⟩])).map
      (fun d => decide (({⟨10, 10⟩, ⟨20, 10⟩, ⟨20, 20⟩} : Finset Pt) ∈ (live d).map verts)) ≠
    (exec oneBox id 40 30 (squareOps [⟨10, 10⟩, ⟨20, 10⟩, ⟨10, 20⟩, ⟨20, 20⟩])).map
      (fun d => decide (({⟨10, 10⟩, ⟨20, 10⟩, ⟨20, 20⟩} : Finset Pt) ∈ (live d).map verts)) := by
  decide +kernel

/-- In-circle determinant of four points. -/
def incirc (a b c d : Pt) : Int :=
  let q (p : Pt) : Int := (p.x * p.x + p.y * p.y) - (a.x * a.x + a.y * a.y)
  (b.x - a.x) * ((c.y - a.y) * q d - q c * (d.y - a.y)) - (b.y - a.y) * ((c.x - a.x) * q d - q c * (d.x - a.x)) +
    q b * ((c.x - a.x) * (d.y - a.y) - (c.y - a.y) * (d.x - a.x))

theorem incirc_zero {a b c d : Pt} (h : ∃ o, Centre ⟨a, b, c⟩ o ∧ d2 o d = d2 o a) : incirc a b c d = 0 := by
  obtain ⟨o, ⟨h1, h2⟩, h3⟩ := h
  simp only [d2] at h1 h2 h3
  have : ((incirc a b c d : Int) : ℚ) = 0 := by
    unfold incirc
    push_cast
    linear_combination (-(((c.x : ℚ) - a.x) * (d.y - a.y) - (c.y - a.y) * (d.x - a.x))) * h1 +
      (((b.x : ℚ) - a.x) * (d.y - a.y) - (b.y - a.y) * (d.x - a.x)) * h2 + (((b.x : ℚ) - a.x) * (c.y - a.y) - (b.y - a.y) * (c.x - a.x)) * h3
  exact_mod_cast this

/-- General position of a list of points can be checked. -/
theorem general_of {W : Pt → Prop} {l : List Pt} (hW : ∀ p, W p → p ∈ l)
    (h : ∀ a ∈ l, ∀ b ∈ l, ∀ c ∈ l, ∀ d ∈ l, incirc a b c d = 0 → a = b ∨ b = c ∨ a = c ∨ d = a ∨ d = b ∨ d = c) : GeneralPosition W := by
  intro a b c d ha hb hc hd hex hn
  obtain ⟨n1, n2, n3⟩ := nondeg_ne hn
  rcases h a (hW a ha) b (hW b hb) c (hW c hc) d (hW d hd) (incirc_zero hex) with h | h | h | h
  · exact absurd h n1
  · exact absurd h n2
  · exact absurd h n3
  · exact h

/-- Three points in general position, inserted in two orders, with different arithmetic. -/
example : ∃ d d', exec (gridGeo ieee 40 30) (rne 53) 40 30 (squareOps [⟨11, 10⟩, ⟨30, 12⟩, ⟨20, 25⟩]) = some d ∧
    exec oneBox id 40 30 (squareOps [⟨20, 25⟩, ⟨30, 12⟩, ⟨11, 10⟩]) = some d' ∧
    (∀ t ∈ live d, ∃ t' ∈ live d', ∃ o, Centre t o ∧ Centre t' o ∧ d2 o t.a = d2 o t'.a) ∧
    ((live d).map verts).Perm ((live d').map verts) := by
  have H : Hist 40 30 (squareOps [⟨11, 10⟩, ⟨30, 12⟩, ⟨20, 25⟩]) (⟨20, 25⟩ ::ₘ ⟨30, 12⟩ ::ₘ ⟨11, 10⟩ ::ₘ (0 : Multiset Pt)) 3 := by
    have h2 := Hist.nil.ins (w := 40) (h := 30) ⟨11, 10⟩ ⟨by norm_num, by norm_num, by norm_num, by norm_num⟩ (by decide) (by decide)
    have h3 := h2.ins ⟨30, 12⟩ ⟨by norm_num, by norm_num, by norm_num, by norm_num⟩ (by decide) (by decide)
    exact h3.ins ⟨20, 25⟩ ⟨by norm_num, by norm_num, by norm_num, by norm_num⟩ (by decide) (by decide)
  have H' : Hist 40 30 (squareOps [⟨20, 25⟩, ⟨30, 12⟩, ⟨11, 10⟩]) (⟨11, 10⟩ ::ₘ ⟨30, 12⟩ ::ₘ ⟨20, 25⟩ ::ₘ (0 : Multiset Pt)) 3 := by
    have h2 := Hist.nil.ins (w := 40) (h := 30) ⟨20, 25⟩ ⟨by norm_num, by norm_num, by norm_num, by norm_num⟩ (by decide) (by decide)
    have h3 := h2.ins ⟨30, 12⟩ ⟨by norm_num, by norm_num, by norm_num, by norm_num⟩ (by decide) (by decide)
    exact h3.ins ⟨11, 10⟩ ⟨by norm_num, by norm_num, by norm_num, by norm_num⟩ (by decide) (by decide)
  have A : Arith (gridGeo ieee 40 30) (rne 53) 40 30 (squareOps [⟨11, 10⟩, ⟨30, 12⟩, ⟨20, 25⟩]) := arith_ieee demo_size (by decide)
  have A' : Arith oneBox id 40 30 (squareOps [⟨20, 25⟩, ⟨30, 12⟩, ⟨11, 10⟩]) := ⟨demo_size, oneBox_ok, fun ⟨p, hp⟩ => by simp [squareOps] at hp⟩
  obtain ⟨d, e⟩ := c06_c07_run_ok_partial A H
  obtain ⟨d', e'⟩ := c06_c07_run_ok_partial A' H'
  obtain ⟨k1, k2⟩ := c09_history_independent_partial A H e A' H' e' fun p => by
    simp only [Multiset.mem_cons, Multiset.notMem_zero, or_false]
    tauto
  refine ⟨d, d', e, e', k1, (k2 ?_).1⟩
  refine general_of (l := [⟨11, 10⟩, ⟨30, 12⟩, ⟨20, 25⟩, ⟨-60, -25⟩, ⟨20, 95⟩, ⟨100, -25⟩]) ?_ (by decide +kernel)
  rintro p (hp | hp)
  · simp only [Multiset.mem_cons, Multiset.notMem_zero, or_false] at hp
    simp only [List.mem_cons]
    tauto
  · have e : newSuperTriangle 40 30 = ⟨⟨-60, -25⟩, ⟨20, 95⟩, ⟨100, -25⟩⟩ := by decide +kernel
    rw [e] at hp
    simp only [IsVertex] at hp
    simp only [List.mem_cons]
    tauto

/-- **C10** (partial: under `Arith` for the longer history): inserting a point that is not stored and
removing it again succeeds, leaves a triangulation with empty circumcircles of the previous points, and in
general position the previous triangles. -/
theorem c10_insert_remove_partial {p : Pt} (A : Arith g fl w h (ops ++ [Op.ins p] ++ [Op.rem p]))
    (H : Hist w h ops s m) (e : exec g fl w h ops = some d) (hp : InImg w h p) (hn : p ∉ s)
    (hd : (p ::ₘ s).dedup.card ≤ 32767) :
    ∃ d1 d2, insert g d p = some d1 ∧ remove g fl d1 p = some d2 ∧
      (∀ t ∈ live d2, ∀ q ∈ s, ¬ InsideCircle t q) ∧
      (∀ t ∈ live d, ∃ t' ∈ live d2, ∃ o, Centre t o ∧ Centre t' o ∧ Spec.d2 o t.a = Spec.d2 o t'.a) ∧
      (GeneralPosition (fun v => v ∈ s ∨ IsVertex (newSuperTriangle w h) v) →
        ((live d).map verts).Perm ((live d2).map verts)) := by
  have H1 := H.ins p hp (by rw [Multiset.count_eq_zero.mpr hn]; norm_num) hd
  have H2 := H1.rem p (Multiset.mem_cons_self _ _)
  rw [Multiset.erase_cons_head] at H2
  have A1 := A.pre (List.prefix_append _ _)
  have A0 := A1.pre (List.prefix_append _ _)
  obtain ⟨d1, e1⟩ := c06_c07_run_ok_partial A1 H1
  obtain ⟨d2, e2⟩ := c06_c07_run_ok_partial A H2
  refine ⟨d1, d2, ?_, ?_, c01_empty_circles_partial A H2 e2, ?_, ?_⟩
  · rw [exec_snoc, e] at e1; exact e1
  · rw [exec_snoc, e1] at e2; exact e2
  · exact (c09_history_independent_partial A0 H e A H2 e2 (fun _ => Iff.rfl)).1
  · exact fun gp => ((c09_history_independent_partial A0 H e A H2 e2 (fun _ => Iff.rfl)).2 gp).1

example : ∃ d d1 d2, exec (gridGeo ieee 40 30) (rne 53) 40 30 demoOps = some d ∧
    insert (gridGeo ieee 40 30) d ⟨15, 12⟩ = some d1 ∧ remove (gridGeo ieee 40 30) (rne 53) d1 ⟨15, 12⟩ = some d2 := by
  obtain ⟨d, e⟩ := demo_exec
  obtain ⟨d1, d2, h1, h2, -⟩ := c10_insert_remove_partial (p := ⟨15, 12⟩)
    (arith_ieee demo_size (by decide)) demo_hist e
    ⟨by norm_num, by norm_num, by norm_num, by norm_num⟩ (by decide) (by decide)
  exact ⟨d, d1, d2, e, h1, h2⟩

/-! ### C11 -/

/-- **C11** (partial: under `Arith`): the number of allocated slots is the number of triangles alive
after some prefix of the history, and no prefix has more; the free list holds exactly the slots that
are not in use, each once. -/
theorem c11_slots_partial (A : Arith g fl w h ops) (H : Hist w h ops s m)
    (e : exec g fl w h ops = some d) :
    (∃ pre d', pre <+: ops ∧ exec g fl w h pre = some d' ∧ d.tris.length = (live d').length) ∧
    (∀ pre d', pre <+: ops → exec g fl w h pre = some d' → (live d').length ≤ d.tris.length) ∧
    d.free.Nodup ∧ ∀ i, i ∈ d.free ↔ ∃ t, d.tris[i]? = some t ∧ t.freed = true := by
  obtain ⟨I, l⟩ := A.inv H e
  refine ⟨?_, ?_, I.slots.free_nodup, I.slots.free_iff⟩
  · obtain ⟨pre, s', m', h1, h2, h3⟩ := Hist.peak H
    obtain ⟨d', e'⟩ := c06_c07_run_ok_partial (A.pre h1) h2
    refine ⟨pre, d', h1, e', ?_⟩
    have := count_live ((A.pre h1).inv h2 e').1.inv
    rw [List.length_map] at this
    rw [this, l, h3]
  · intro pre d' hp e'
    obtain ⟨s', m', h1, h2⟩ := Hist.pre H pre hp
    have := count_live ((A.pre hp).inv h1 e').1.inv
    rw [List.length_map] at this
    have := h1.dedup_le
    omega

example : ∃ d, exec (gridGeo ieee 40 30) (rne 53) 40 30 demoOps = some d ∧ d.free.Nodup :=
  let ⟨d, e⟩ := demo_exec
  ⟨d, e, (c11_slots_partial demo_arith demo_hist e).2.2.1⟩

/-- Number of triangles: two per different stored point, plus one. -/
theorem c11_count_partial (A : Arith g fl w h ops) (H : Hist w h ops s m)
    (e : exec g fl w h ops = some d) : (live d).length = 2 * s.dedup.card + 1 ∧ d.tris.length = 2 * m + 1 := by
  obtain ⟨I, l⟩ := A.inv H e
  have := count_live I.inv
  rw [List.length_map] at this
  exact ⟨this, l⟩

example : ∃ d, exec (gridGeo ieee 40 30) (rne 53) 40 30 demoOps = some d ∧ (live d).length = 7 ∧ d.tris.length = 9 := by
  obtain ⟨d, e⟩ := demo_exec
  have := c11_count_partial demo_arith demo_hist e
  refine ⟨d, e, ?_, this.2⟩
  rw [this.1]; decide

/-! ### C12, C13 -/

/-- **C12**: after `d.Set(o)` the observers answer as for `o`, and so they do after any further calls
on both (for all states with point maps of the same size, in particular all reachable ones, any
buffers and any arithmetic). -/
theorem c12_set (bufs : Bufs) {o : D} (hl : d.pm.length = o.pm.length) :
    iterTriangles (setFrom d bufs o) = iterTriangles o ∧
    (∀ p, hasPoint g (setFrom d bufs o) p = hasPoint g o p) ∧
    (∀ p, getClosestTo (setFrom d bufs o) p = getClosestTo o p) ∧
    (∀ ops, (run g fl (setFrom d bufs o) ops).map iterTriangles = (run g fl o ops).map iterTriangles ∧
      (∀ p, (run g fl (setFrom d bufs o) ops).bind (hasPoint g · p) = (run g fl o ops).bind (hasPoint g · p)) ∧
      ∀ p, (run g fl (setFrom d bufs o) ops).map (getClosestTo · p) = (run g fl o ops).map (getClosestTo · p)) := by
  have hs := setFrom_strip d bufs o hl
  have it : ∀ x : D, iterTriangles x = iterTriangles (strip x) := fun _ => rfl
  have hpl : ∀ (x : D) (p : Pt) (ks : List Nat), hasPointLoop (strip x) p ks = hasPointLoop x p ks := by
    intro x p ks
    induction ks with
    | nil => rfl
    | cons k ks ih => simp only [hasPointLoop, ih]; rfl
  have hp : ∀ (x : D) (p : Pt), hasPoint g x p = hasPoint g (strip x) p := by
    intro x p
    unfold hasPoint
    simp only [hpl]
    rfl
  have gc : ∀ (x : D) (p : Pt), getClosestTo x p = getClosestTo (strip x) p := fun _ _ => rfl
  refine ⟨by rw [it, hs, ← it], fun p => by rw [hp, hs, ← hp], fun p => by rw [gc, hs, ← gc], ?_⟩
  intro ops
  have hr := run_strip g fl ops hs
  cases h1 : run g fl (setFrom d bufs o) ops with
  | none =>
    rw [h1] at hr
    cases h2 : run g fl o ops with
    | none => simp
    | some y => rw [h2] at hr; cases hr
  | some x =>
    rw [h1] at hr
    cases h2 : run g fl o ops with
    | none => rw [h2] at hr; cases hr
    | some y =>
      rw [h2] at hr
      simp only [Option.map_some, Option.some.injEq] at hr
      refine ⟨?_, ?_, ?_⟩
      · simp only [Option.map_some]; rw [it, hr, ← it]
      · intro p; simp only [Option.bind_some]; rw [hp, hr, ← hp]
      · intro p; simp only [Option.map_some]; rw [gc, hr, ← gc]

/-- All reachable states have point maps of the same size. -/
theorem c12_reachable {w' h' : Nat} {o : D} (e : exec g fl w h ops = some d) (e' : exec g' fl' w' h' ops' = some o) :
    d.pm.length = o.pm.length := by rw [exec_pmlen e, exec_pmlen e']

example : ∃ d o, exec (gridGeo ieee 40 30) (rne 53) 40 30 demoOps = some d ∧
    exec (gridGeo ieee 40 30) (rne 53) 40 30 [] = some o ∧ d.pm.length = o.pm.length := by
  obtain ⟨d, e⟩ := demo_exec
  obtain ⟨o, e'⟩ := c06_c07_run_ok_partial (demo_arith.pre (List.nil_prefix)) Hist.nil
  exact ⟨d, o, e, e', c12_reachable e e'⟩

example (bufs : Bufs) : ∃ d o, exec (gridGeo ieee 40 30) (rne 53) 40 30 [] = some d ∧
    exec (gridGeo ieee 40 30) (rne 53) 40 30 demoOps = some o ∧ iterTriangles (setFrom d bufs o) = iterTriangles o := by
  obtain ⟨o, e⟩ := demo_exec
  obtain ⟨d, e'⟩ := c06_c07_run_ok_partial (demo_arith.pre (List.nil_prefix)) Hist.nil
  exact ⟨d, o, e', e, (c12_set (g := gridGeo ieee 40 30) (fl := rne 53) bufs (c12_reachable e' e)).1⟩

/-- **C13 is false**: `Set` leaves `NumPoints` of the receiver as it was.  Witness: an empty
triangulation set from one holding four points. -/
theorem c13_set_numPoints_false : ∃ d o, exec (gridGeo ieee 40 30) (rne 53) 40 30 [] = some d ∧
    exec (gridGeo ieee 40 30) (rne 53) 40 30 demoOps = some o ∧
    ∀ bufs, numPoints (setFrom d bufs o) = 0 ∧ numPoints o = 4 := by
  obtain ⟨o, e⟩ := demo_exec
  have A0 : Arith (gridGeo ieee 40 30) (rne 53) 40 30 [] := demo_arith.pre (List.nil_prefix)
  obtain ⟨d, e'⟩ := c06_c07_run_ok_partial A0 Hist.nil
  refine ⟨d, o, e', e, fun bufs => ⟨?_, ?_⟩⟩
  · change numPoints d = 0
    rw [c08_numPoints_partial A0 Hist.nil e']; rfl
  · rw [c08_numPoints_partial demo_arith demo_hist e]; decide

/-- **C13**, what does hold: `Set` keeps the receiver's count, so counts agree after `Set` exactly when
they agreed before. -/
theorem c13_set_numPoints_partial (bufs : Bufs) (o : D) : numPoints (setFrom d bufs o) = numPoints d := rfl

/-! ### C14 -/

/-- **C14** (partial: under `Arith`, longer side at least 4): `GetClosestTo` returns a stored point at
minimal distance. -/
theorem c14_closest_partial (A : Arith g fl w h ops) (H : Hist w h ops s m)
    (e : exec g fl w h ops = some d) (h4 : 4 ≤ side w h) (hne : s ≠ 0) {p : Pt} (hp : InImg w h p) :
    getClosestTo d p ∈ s ∧ ∀ q ∈ s, ((getClosestTo d p).x - p.x) ^ 2 + ((getClosestTo d p).y - p.y) ^ 2 ≤
      (q.x - p.x) ^ 2 + (q.y - p.y) ^ 2 :=
  (A.inv H e).1.closest A.size h4 hne hp

example : ∃ d, exec (gridGeo ieee 40 30) (rne 53) 40 30 demoOps = some d ∧ getClosestTo d ⟨20, 15⟩ ∈ demoBag :=
  let ⟨d, e⟩ := demo_exec
  ⟨d, e, (c14_closest_partial demo_arith demo_hist e (by decide) (by decide)
    ⟨by norm_num, by norm_num, by norm_num, by norm_num⟩).1⟩

/-- **C14 is false for tiny images**: in a 3 x 3 image holding only (3,3) the answer for (0,0) is a bounding
vertex. -/
theorem c14_closest_tiny_false : ∃ d, exec (gridGeo ieee 3 3) (rne 53) 3 3 [.ins ⟨3, 3⟩] = some d ∧
    getClosestTo d ⟨0, 0⟩ ∉ ({⟨3, 3⟩} : Multiset Pt) := by
  have h : (exec (gridGeo ieee 3 3) (rne 53) 3 3 [.ins ⟨3, 3⟩]).map (fun d => getClosestTo d ⟨0, 0⟩) =
      some ⟨-4, -1⟩ := by decide +kernel
  obtain ⟨d, hd, he⟩ := Option.map_eq_some_iff.mp h
  refine ⟨d, hd, ?_⟩
  rw [he]
  decide

/-- **C06 is false for 1 x 1 images** (excluded from C06): the vertices of the bounding triangle collide
with the mark of free slots. -/
theorem c06_one_pixel : exec (gridGeo ieee 1 1) (rne 53) 1 1 [.ins ⟨1, 1⟩] = none := by decide +kernel

end Verif.Props

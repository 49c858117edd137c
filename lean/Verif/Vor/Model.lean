import Verif.Incr.Grid

/-!
# Model of the incremental Voronoi diagram (`triangulation/incrdelaunay/voronoi.go`, `polygonmap.go`)

Float operations are rounded with `F.r64`; the stored circumcentres are float32 values (`calcCircumcircle`), widened exactly.
`-epsilon` and negation are exact.  Panics are `none`.  The library sort is a parameter `srt`.
The scratch slices `points`, `newPolygon`, `pointsToUpdate` are emptied before every use and appear as local values; a stored
polygon is a fresh copy (265-275), so polygons are values.
-/

namespace Verif.Vor

open Verif.Incr

/-- geom.go 131-133 `FloatPoint`. -/
abbrev FP := ℚ × ℚ

/-- The library function `sort.Slice`, given the comparison of two elements, which may panic. -/
abbrev Sorter := (FP → FP → Option Bool) → List FP → Option (List FP)

/-- What is assumed of `sort.Slice`: it compares elements at different positions only, it does not panic unless a comparison does,
it permutes the elements, and it sorts them if the comparison is a strict order on them. -/
structure SorterOK (srt : Sorter) : Prop where
  some : ∀ c l, l.Pairwise (fun a b => (c a b).isSome = true ∧ (c b a).isSome = true) → ∃ l', srt c l = Option.some l'
  perm : ∀ c l l', srt c l = Option.some l' → l'.Perm l
  sorted : ∀ c l l', srt c l = Option.some l' →
    l.Pairwise (fun a b => (c a b = Option.some true ∧ c b a = Option.some false) ∨ (c a b = Option.some false ∧ c b a = Option.some true)) →
    (∀ x ∈ l, ∀ y ∈ l, ∀ z ∈ l, c x y = Option.some true → c y z = Option.some true → c x z = Option.some true) →
    l'.Pairwise (fun a b => c a b = Option.some true)

/-! ### Geometry -/

/-- voronoi.go 492 `epsilon`, as a float64 constant. -/
def eps (F : FloatOps) : ℚ := F.r64 (1 / 10000)

/-- voronoi.go 494-496 `epsilonEquals`. -/
def epsilonEquals (F : FloatOps) (a b : ℚ) : Bool := decide (|F.r64 (a - b)| < eps F)

/-- voronoi.go 517-519 `outside`. -/
def outside (F : FloatOps) (w h : Nat) (p : FP) : Bool :=
  decide (p.1 < -eps F ∨ p.2 < -eps F ∨ p.1 > F.r64 (w + eps F) ∨ p.2 > F.r64 (h + eps F))

/-- voronoi.go 498-515 `segmentsIntersect`; `none` is the result `0, 0, false`.  With a zero denominator `s` and `t` are infinite
or NaN, and the tests of 510 fail. -/
def segmentsIntersect (F : FloatOps) (p0 p1 p2 p3 : FP) : Option FP :=
  let s1x := F.r64 (p1.1 - p0.1)
  let s1y := F.r64 (p1.2 - p0.2)
  let s2x := F.r64 (p3.1 - p2.1)
  let s2y := F.r64 (p3.2 - p2.2)
  let den := F.r64 (F.r64 (-s2x * s1y) + F.r64 (s1x * s2y))
  if den = 0 then none
  else
    let dx := F.r64 (p0.1 - p2.1)
    let dy := F.r64 (p0.2 - p2.2)
    let s := F.r64 (F.r64 (F.r64 (-s1y * dx) + F.r64 (s1x * dy)) / den)
    let t := F.r64 (F.r64 (F.r64 (s2x * dy) - F.r64 (s2y * dx)) / den)
    if 0 ≤ s ∧ s ≤ 1 ∧ 0 ≤ t ∧ t ≤ 1 then
      some (F.r64 (p0.1 + F.r64 (t * s1x)), F.r64 (p0.2 + F.r64 (t * s1y)))
    else none

/-- Every element with its successor, cyclically: `a[i]`, `a[(i+1) % len(a)]` (voronoi.go 167-169, 526-540). -/
def pairs {α : Type} (l : List α) : List (α × α) := l.zip (l.rotate 1)

/-- voronoi.go 546: the cross product. -/
def crossD (F : FloatOps) (q : FP) (e : FP × FP) : ℚ :=
  F.r64 (F.r64 (F.r64 (q.1 - e.1.1) * F.r64 (e.2.2 - e.1.2)) - F.r64 (F.r64 (q.2 - e.1.2) * F.r64 (e.2.1 - e.1.1)))

/-- voronoi.go 526-559: the loop of `polygonPointIntersect`, with the counters `pos` and `neg`. -/
def ppiLoop (F : FloatOps) (q : FP) : List (FP × FP) → Nat → Nat → Bool
  | [], _, _ => true
  | e :: es, pos, neg =>
    if e.1 = q then true
    else
      let d := crossD F q e
      let pos := if d > 0 then pos + 1 else pos
      let neg := if d < 0 then neg + 1 else neg
      if pos > 0 ∧ neg > 0 then false else ppiLoop F q es pos neg

/-- voronoi.go 521-563 `polygonPointIntersect`. -/
def polygonPointIntersect (F : FloatOps) (poly : List FP) (q : FP) : Bool := ppiLoop F q (pairs poly) 0 0

/-! ### Sorting around a point -/

/-- voronoi.go 135-159 (and 351-375): the comparison of `points[i] = b` with `points[j] = a`; `none` if the
determinant vanishes. -/
def cmp (F : FloatOps) (c b a : FP) : Option Bool :=
  let ax := F.r64 (a.1 - c.1)
  let ay := F.r64 (a.2 - c.2)
  let bx := F.r64 (b.1 - c.1)
  let b_y := F.r64 (b.2 - c.2)
  if 0 ≤ ax ∧ bx < 0 then some true
  else if ax < 0 ∧ 0 ≤ bx then some false
  else if ax = 0 ∧ bx = 0 then
    (if 0 ≤ ay ∨ 0 ≤ b_y then some (decide (b.2 < a.2)) else some (decide (a.2 < b.2)))
  else
    let det := F.r64 (F.r64 (ax * b_y) - F.r64 (bx * ay))
    if det < 0 then some true
    else if 0 < det then some false
    else none

/-- voronoi.go 238-262, 454-478: the comparison of the second sort, `false` at the end. -/
def less (F : FloatOps) (c b a : FP) : Bool := (cmp F c b a).getD false

/-! ### The polygon of a point -/

/-- voronoi.go 106-111 (and 322-327): the stored circumcentre. -/
def centre (F : FloatOps) (t : Tri) : FP := let c := calcCircumcircle F t.a t.b t.c; (c.cx, c.cy)

/-- voronoi.go 116-126: append a centre that is not there yet. -/
def addCentre (F : FloatOps) (ps : List FP) (t : Tri) : List FP := if centre F t ∈ ps then ps else ps ++ [centre F t]

/-- voronoi.go 102-127: the centres. -/
def centres (F : FloatOps) (ts : List Tri) : List FP := ts.foldl (addCentre F) []

/-- voronoi.go 103, 113-115: some centre is outside the image. -/
def clips (F : FloatOps) (w h : Nat) (ts : List Tri) : Bool := ts.any fun t => outside F w h (centre F t)

/-- voronoi.go 304-309 `edges`, scaled to the image (178-185; products with 0 and 1 are exact). -/
def edges (w h : Nat) : List (FP × FP) :=
  [((0, 0), ((w : ℚ), 0)), (((w : ℚ), 0), ((w : ℚ), (h : ℚ))), (((w : ℚ), (h : ℚ)), (0, (h : ℚ))), ((0, (h : ℚ)), (0, 0))]

/-- voronoi.go 177-208, one edge `e` of the image with number `j`: `newPolygon`, and which of the counters `intersections` differ
from -1. -/
def edgeStep (F : FloatOps) (a b : FP) (st : List FP × List Bool) (e : (FP × FP) × Nat) : List FP × List Bool :=
  match segmentsIntersect F e.1.1 e.1.2 a b with
  | none => st
  | some q =>
    if !(epsilonEquals F q.1 a.1 && epsilonEquals F q.2 a.2) && !(epsilonEquals F q.1 b.1 && epsilonEquals F q.2 b.2) then
      (if q ≠ e.1.1 ∧ q ≠ e.1.2 then st.1 ++ [q] else st.1, st.2.set e.2 true)
    else st

/-- voronoi.go 167-210, one side `ab` of the unclipped polygon. -/
def sideStep (F : FloatOps) (w h : Nat) (st : List FP × List Bool) (ab : FP × FP) : List FP × List Bool :=
  (edges w h).zipIdx.foldl (edgeStep F ab.1 ab.2) (if outside F w h ab.1 then st.1 else st.1 ++ [ab.1], st.2)

/-- voronoi.go 163-210. -/
def clipSides (F : FloatOps) (w h : Nat) (pts : List FP) : List FP × List Bool :=
  (pairs pts).foldl (sideStep F w h) ([], [false, false, false, false])

/-- voronoi.go 212-225: the corner after edge `e` with number `j`. -/
def cornerStep (F : FloatOps) (pts : List FP) (hit : List Bool) (poly : List FP) (e : (FP × FP) × Nat) : List FP :=
  if hit.getD e.2 false && hit.getD ((e.2 + 1) % 4) false && polygonPointIntersect F pts e.1.2 then poly ++ [e.1.2] else poly

/-- voronoi.go 163-225: the points of the clipped polygon. -/
def clipPoints (F : FloatOps) (w h : Nat) (pts : List FP) : List FP :=
  let r := clipSides F w h pts
  (edges w h).zipIdx.foldl (cornerStep F pts r.2) r.1

/-- voronoi.go 227-235: the mean.  Without points it is NaN, and not used. -/
def mean (F : FloatOps) (l : List FP) : FP :=
  let s := l.foldl (fun c p => (F.r64 (c.1 + p.1), F.r64 (c.2 + p.2))) (0, 0)
  (F.r64 (s.1 / l.length), F.r64 (s.2 / l.length))

/-- voronoi.go 134-278: the polygon of a point, from its centres and `clip`. -/
def cellPoly (F : FloatOps) (srt : Sorter) (w h : Nat) (p : Pt) (cs : List FP) (clip : Bool) : Option (List FP) := do
  let pts ← srt (cmp F ((p.x : ℚ), (p.y : ℚ))) cs
  if clip then
    let l := clipPoints F w h pts
    srt (fun b a => some (less F (mean F l) b a)) l
  else return pts

/-- grid.go 229-253 `IterThatHasVertex`: the triangles passed to the callback. -/
def iterVertex (g : Geo) (d : D) (p : Pt) : Option (List Tri) := do
  let c ← g.cell p
  let ts ← (d.cells c.1 c.2).mapM (fun k => d.tris[k]?)
  return ts.filter (·.hasVertex p)

/-- grid.go 169-196 `IterCircumcirclesThatContain`: the triangles passed to the callback; a triangle marked free panics. -/
def iterContain (g : Geo) (d : D) (p : Pt) : Option (List Tri) := do
  let c ← g.cell p
  let ts ← (d.cells c.1 c.2).mapM (fun k => (d.tris[k]?).bind fun t => if t.freed then none else some t)
  return ts.filter (inTest p)

/-- voronoi.go 99-278 `processPoint` without storing the polygon; 318-480 of `Voronoi`. -/
def cellOf (g : Geo) (F : FloatOps) (srt : Sorter) (w h : Nat) (d : D) (p : Pt) : Option (List FP) := do
  let ts ← iterVertex g d p
  cellPoly F srt w h p (centres F ts) (clips F w h ts)

/-! ### The polygon map -/

/-- polygonmap.go 3-5 `polygonMap` and 61-64 `polygonEntry`. -/
abbrev PolyMap := List (List (Pt × List FP))

/-- polygonmap.go 16, 25: the index; a negative one panics. -/
def polySlot (m : PolyMap) (p : Pt) : Option Nat :=
  if m.length = 0 then none
  else
    let h := Int.tmod ((53 + p.x) * 53 + p.y) m.length
    if h < 0 then none else some h.toNat

/-- polygonmap.go 15-22 `AddPolygon`. -/
def addPolygon (m : PolyMap) (p : Pt) (poly : List FP) : Option PolyMap := do
  let k ← polySlot m p
  let b ← m[k]?
  return m.set k (b ++ [(p, poly)])

/-- polygonmap.go 24-36 `RemovePolygon`; an absent polygon panics. -/
def removePolygon (m : PolyMap) (p : Pt) : Option PolyMap := do
  let k ← polySlot m p
  let b ← m[k]?
  let i ← b.findIdx? (fun e => e.1 == p)
  return m.set k (swapRemove b i)

/-! ### The diagram -/

/-- voronoi.go 18-27 `IVoronoi`. -/
structure V where
  d : D
  pm : PolyMap
  w : Nat
  h : Nat

/-- voronoi.go 8-16 `NewVoronoi`. -/
def newVoronoi (g : Geo) (w h : Nat) : Option V := do
  let d ← newDelaunay g w h
  return ⟨d, List.replicate 6 [], w, h⟩

/-- voronoi.go 280-296 `addPointToUpdate`. -/
def addUpdate (sup : Tri) (us : List Pt) (p : Pt) : List Pt :=
  if sup.hasVertex p then us else if p ∈ us then us else us ++ [p]

/-- voronoi.go 40-42, 71-73. -/
def addTriUpdate (sup : Tri) (us : List Pt) (t : Tri) : List Pt :=
  addUpdate sup (addUpdate sup (addUpdate sup us t.a) t.b) t.c

/-- voronoi.go 99-278 `processPoint`. -/
def processPoint (g : Geo) (F : FloatOps) (srt : Sorter) (v : V) (p : Pt) : Option V := do
  let poly ← cellOf g F srt v.w v.h v.d p
  let m ← addPolygon v.pm p poly
  return { v with pm := m }

/-- voronoi.go 29-57 `Insert`. -/
def vInsert (g : Geo) (F : FloatOps) (srt : Sorter) (v : V) (p : Pt) : Option V := do
  let n ← pmCopies v.d.pm p
  if n > 0 then
    let d ← insert g v.d p
    return { v with d := d }
  else
    let ts ← iterContain g v.d p
    let us := ts.foldl (addTriUpdate v.d.sup) []
    let d ← insert g v.d p
    let m ← us.foldlM removePolygon v.pm
    (addUpdate v.d.sup us p).foldlM (processPoint g F srt) { v with d := d, pm := m }

/-- voronoi.go 59-89 `Remove`. -/
def vRemove (g : Geo) (F : FloatOps) (srt : Sorter) (v : V) (p : Pt) : Option V := do
  let n ← pmCopies v.d.pm p
  if n > 1 then
    let d ← remove g F.r64 v.d p
    return { v with d := d }
  else
    let ts ← iterVertex g v.d p
    let us := ts.foldl (addTriUpdate v.d.sup) []
    let d ← remove g F.r64 v.d p
    let m ← us.foldlM removePolygon v.pm
    (us.filter (· ≠ p)).foldlM (processPoint g F srt) { v with d := d, pm := m }

/-- voronoi.go 91-97 and polygonmap.go 52-58 `IterPolygons`: the polygons passed to the callback. -/
def iterPolygons (v : V) : List (List FP) := (v.pm.flatten.map Prod.snd).filter (fun l => decide (0 < l.length))

/-- Spare capacity behind the slices of an `IVoronoi`. -/
structure VBufs where
  d : Bufs
  pm : Nat → List (Pt × List FP)

/-- voronoi.go 298-301 `Set` (with polygonmap.go 39-50), for two diagrams of the same size. -/
def vSet (v : V) (bufs : VBufs) (o : V) : V :=
  { v with
    d := setFrom v.d bufs.d o.d
    pm := (List.range v.pm.length).map fun i => setSlice (⟨0, 0⟩, []) (bufs.pm i) (o.pm.getD i []) }

/-- pointmap.go 98-107 `IterPoints`: the points passed to the callback (`int16(p.x)` of a uint16). -/
def iterPoints (pm : PMap) : List Pt := pm.flatten.map fun e => ⟨w16 e.x, w16 e.y⟩

/-- voronoi.go 311-490 `Voronoi`: the polygons passed to the callback. -/
def voronoi (g : Geo) (F : FloatOps) (srt : Sorter) (w h : Nat) (d : D) : Option (List (List FP)) := do
  let l ← (iterPoints d.pm).mapM (cellOf g F srt w h d)
  return l.filter (fun l => decide (0 < l.length))

end Verif.Vor

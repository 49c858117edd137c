import Mathlib.Algebra.Order.Field.Rat
import Mathlib.Algebra.Order.Ring.Rat

/-!
# Model of `triangulation/incrdelaunay` (incremental Delaunay triangulation)

Panics are `none`.  Coordinates are `Int`; every int16 operation of the source that can
wrap is followed by `w16`, every int64 result by `w64`.  (int64 `+ - *` are ring operations
modulo 2^64, so wrapping the final result once is the same as wrapping every step.)
-/

namespace Verif.Incr

/-- Wrap to int16 (Go integer overflow). -/
def w16 (z : Int) : Int := Int.bmod z 65536

/-- Wrap to int64. -/
def w64 (z : Int) : Int := Int.bmod z 18446744073709551616

/-- geom.go 45-47 `Point`. -/
@[ext]
structure Pt where
  x : Int
  y : Int
deriving DecidableEq, Repr

/-- geom.go 8-11 `Triangle`.  The stored circumcircle is a function of the three vertices at
creation and is not modelled as a field: it is read only in `AddTriangle`/`RemoveTriangle`, for
triangles whose vertices are still the original ones. -/
@[ext]
structure Tri where
  a : Pt
  b : Pt
  c : Pt
deriving DecidableEq, Repr

/-- geom.go 24-26 `HasVertex`. -/
def Tri.hasVertex (t : Tri) (p : Pt) : Bool := t.a == p || t.b == p || t.c == p

/-- delaunay.go 254, 261: the marker of a free slot. -/
def Tri.freed (t : Tri) : Bool := t.a.x == -1

/-- geom.go 29-42 `NewSuperTriangle`.  `math.Ceil(float64(w)/2)` is exact for int `w`. -/
def newSuperTriangle (w h : Nat) : Tri :=
  let hW := w16 ((w + 1) / 2 : Nat)
  let hH := w16 ((h + 1) / 2 : Nat)
  let max := if h > w then w16 h else w16 w
  ⟨⟨w16 (hW - w16 (2 * max)), w16 (hH - max)⟩, ⟨hW, w16 (hH + w16 (2 * max))⟩,
    ⟨w16 (hW + w16 (2 * max)), w16 (hH - max)⟩⟩

/-- geom.go 50-55 `DistSq`. -/
def distSq (p b : Pt) : Int :=
  let dX := w16 (b.x - p.x)
  let dY := w16 (b.y - p.y)
  w64 (dX * dX + dY * dY)

/-- util.go 29-31 `orientation`. -/
def orientation (a b c : Pt) : Int := w64 ((a.x - c.x) * (b.y - c.y) - (b.x - c.x) * (a.y - c.y))

/-- util.go 17-25: the determinant of `inCircle`, after the swap. -/
def inCircleDet (a b c d : Pt) : Int :=
  let a11 := a.x - d.x
  let a21 := b.x - d.x
  let a31 := c.x - d.x
  let a12 := a.y - d.y
  let a22 := b.y - d.y
  let a32 := c.y - d.y
  w64 ((a11*a11+a12*a12)*(a21*a32-a31*a22) +
    (a21*a21+a22*a22)*(a31*a12-a11*a32) +
    (a31*a31+a32*a32)*(a11*a22-a21*a12))

/-- util.go 9-26 `inCircle`. -/
def inCircle (a b c d : Pt) : Int :=
  if orientation a b c < 0 then inCircleDet b a c d else inCircleDet a b c d

/-- util.go 35-45 `calculateScore`; `none` is `math.MaxFloat64`; `fl` is the rounding of
float64 operations (conversion from int64 and division). -/
def calculateScore (fl : ℚ → ℚ) (a b c d : Pt) : Option ℚ :=
  let o := orientation a b c
  if o ≤ 0 then none
  else some (fl (fl (inCircle a b c d : ℚ) / fl (o : ℚ)))

/-- The float-dependent part of `CircumcircleGrid` (grid.go): `cover a b c x y` says that the
loop bounds computed in `AddTriangle`/`RemoveTriangle` (33-51, 66-84) from the circumcircle of
`a b c` include column `x` and row `y`; `cell p` is the box computed in `HasPoint` and the other
lookups (107-116), `none` if the index is out of range. -/
structure Geo where
  cover : Pt → Pt → Pt → Nat → Nat → Bool
  cell : Pt → Option (Nat × Nat)

/-- Grid contents: grid.go 10 `triangles [][][]uint16`. -/
abbrev Cells := Nat → Nat → List Nat

/-- Remove position `i` by moving the last element into it (grid.go 95-97,
delaunay.go 214-215, pointmap.go 52-53). -/
def swapRemove {α} (l : List α) (i : Nat) : List α :=
  match l.getLast? with
  | none => l
  | some z => (l.set i z).dropLast

/-- grid.go 31-61 `AddTriangle`. -/
def gridAdd (g : Geo) (cs : Cells) (t : Tri) (i : Nat) : Cells := fun x y =>
  if g.cover t.a t.b t.c x y then cs x y ++ [i] else cs x y

/-- grid.go 64-102 `RemoveTriangle`: in every covered box the first occurrence is removed. -/
def gridRemove (g : Geo) (cs : Cells) (t : Tri) (i : Nat) : Cells := fun x y =>
  if g.cover t.a t.b t.c x y then
    if i ∈ cs x y then swapRemove (cs x y) ((cs x y).idxOf i) else cs x y
  else cs x y

/-- pointmap.go 110-113 `pointEntry`; fields are uint16 values. -/
structure Entry where
  x : Nat
  y : Nat
  count : Nat
deriving DecidableEq, Repr

/-- pointmap.go 4-6 `pointMap`. -/
abbrev PMap := List (List Entry)

/-- Conversion `uint16(z)` (pointmap.go 17, 40). -/
def u16 (z : Int) : Nat := (z % 65536).toNat

/-- geom.go 58-60 `Hash` and pointmap.go 18 `% len`; a negative index panics. -/
def slotOf (pm : PMap) (p : Pt) : Option Nat :=
  if pm.length = 0 then none
  else
    let h := Int.tmod ((53 + p.x) * 53 + p.y) pm.length
    if h < 0 then none else some h.toNat

/-- pointmap.go 22: the entry matches the point. -/
def Entry.isAt (e : Entry) (p : Pt) : Bool := u16 p.x == e.x && u16 p.y == e.y

/-- pointmap.go 16-35 `AddPoint`, on one bucket. -/
def bucketAdd (b : List Entry) (p : Pt) : List Entry × Nat :=
  match b.findIdx? (·.isAt p) with
  | some i =>
    match b[i]? with
    | some e => (b.set i { e with count := (e.count + 1) % 65536 }, (e.count + 1) % 65536)
    | none => (b, 0)
  | none => (b ++ [⟨u16 p.x, u16 p.y, 1⟩], 1)

/-- pointmap.go 39-59 `RemovePoint`, on one bucket (`count--` is uint16 arithmetic). -/
def bucketRemove (b : List Entry) (p : Pt) : Option (List Entry × Nat) :=
  match b.findIdx? (·.isAt p) with
  | some i =>
    match b[i]? with
    | some e =>
      let n := (e.count + 65535) % 65536
      if n ≠ 0 then some (b.set i { e with count := n }, n)
      else some (swapRemove b i, 0)
    | none => none
  | none => none

/-- pointmap.go 16-35 `AddPoint`. -/
def pmAdd (pm : PMap) (p : Pt) : Option (PMap × Nat) := do
  let k ← slotOf pm p
  let b ← pm[k]?
  let r := bucketAdd b p
  some (pm.set k r.1, r.2)

/-- pointmap.go 39-59 `RemovePoint`. -/
def pmRemove (pm : PMap) (p : Pt) : Option (PMap × Nat) := do
  let k ← slotOf pm p
  let b ← pm[k]?
  let r ← bucketRemove b p
  some (pm.set k r.1, r.2)

/-- pointmap.go 61-71 `CopiesOf`. -/
def pmCopies (pm : PMap) (p : Pt) : Option Nat := do
  let k ← slotOf pm p
  let b ← pm[k]?
  match b.find? (·.isAt p) with
  | some e => some e.count
  | none => some 0

/-- pointmap.go 74-82 `NumPoints`. -/
def pmNumPoints (pm : PMap) : Nat := (pm.map (fun b => (b.map (·.count)).sum)).sum

/-- pointmap.go 9-13 `newPointMap`. -/
def newPointMap (size : Nat) : PMap := List.replicate size []

/-- delaunay.go 11-30 `Delaunay`.  The scratch slices `edges`, `hull`, `ears` are emptied
before every use (54, 91, 155) and appear as local values.  `free` has its top at the head. -/
structure D where
  tris : List Tri
  free : List Nat
  cells : Cells
  pm : PMap
  sup : Tri
  numPoints : Int
  unique : Int

/-- delaunay.go 235-249 `addTriangle`; slot numbers are uint16. -/
def addTriangle (g : Geo) (d : D) (t : Tri) : Option D :=
  match d.free with
  | i :: fr =>
    if i < d.tris.length then
      some { d with tris := d.tris.set i t, cells := gridAdd g d.cells t i, free := fr }
    else none
  | [] =>
    some { d with tris := d.tris ++ [t], cells := gridAdd g d.cells t (d.tris.length % 65536) }

/-- delaunay.go 33-46 `NewDelaunay` (with grid.go 16-28 `NewCircumcircleGrid`). -/
def newDelaunay (g : Geo) (w h : Nat) : Option D := do
  let s := newSuperTriangle w h
  let zero : Tri := ⟨⟨0, 0⟩, ⟨0, 0⟩, ⟨0, 0⟩⟩
  let d ← addTriangle g ⟨[], [], fun _ _ => [], [], zero, 0, 0⟩ s
  some { d with sup := s, pm := newPointMap 100 }

/-- delaunay.go 253-256 `markFreeTriangle`. -/
def markFree (d : D) (i : Nat) : D :=
  match d.tris[i]? with
  | some t => { d with tris := d.tris.set i { t with a := ⟨-1, t.a.y⟩ }, free := i :: d.free }
  | none => d

/-- The loops of grid.go 136-167 `RemoveCircumcirclesThatContain` and 199-227
`RemoveThatHasVertex`, from position `i` with `n = size - i` iterations left, on box `(x, y)`.
`check` says whether the marker test (154-156) is present, `q` is the test on the triangle.
The callback is `markFreeTriangle` plus recording the triangle in `acc` (its other effect,
`addEdge` or `addPoint`, depends on the recorded triangles only, see `insert` and `remove`).
The slice `group` shares its array with the box, so `group[i]` reads the current contents. -/
def removeLoop (g : Geo) (check : Bool) (q : Tri → Bool) (x y : Nat) :
    Nat → Nat → D → List Tri → Option (D × List Tri)
  | 0, _, d, acc => some (d, acc)
  | n + 1, i, d, acc =>
    match (d.cells x y)[i]? with
    | none => none
    | some k =>
      match d.tris[k]? with
      | none => none
      | some t =>
        if check && t.freed then none
        else if q t then
          let d1 := markFree d k
          let d2 := { d1 with cells := gridRemove g d1.cells t k }
          removeLoop g check q x y n i d2 (acc ++ [t])
        else removeLoop g check q x y n (i + 1) d acc

/-- geom.go 107-109 `Edge`. -/
abbrev Edge := Pt × Pt

/-- geom.go 118-129 `NewEdge`. -/
def newEdge (a b : Pt) : Edge :=
  if a.x > b.x then (b, a)
  else if a.x = b.x then (if a.y > b.y then (b, a) else (a, b))
  else (a, b)

/-- delaunay.go 209-222 `addEdge`. -/
def addEdge (es : List Edge) (e : Edge) : List Edge :=
  if e ∈ es then swapRemove es (es.idxOf e) else es ++ [e]

/-- delaunay.go 60-62: the three calls of `addEdge` for one removed triangle. -/
def addTriEdges (es : List Edge) (t : Tri) : List Edge :=
  addEdge (addEdge (addEdge es (newEdge t.a t.b)) (newEdge t.b t.c)) (newEdge t.c t.a)

/-- delaunay.go 69-78: connect the boundary edges to the new point. -/
def fillEdges (g : Geo) (p : Pt) : D → List Edge → Option D
  | d, [] => some d
  | d, e :: es =>
    let A := w16 (e.2.x - e.1.x)
    let B := w16 (e.2.y - e.1.y)
    let G := w64 (A * w16 (p.y - e.2.y) - B * w16 (p.x - e.2.x))
    if G ≠ 0 then do
      let d' ← addTriangle g d ⟨e.1, e.2, p⟩
      fillEdges g p d' es
    else fillEdges g p d es

/-- grid.go 158: the test of `RemoveCircumcirclesThatContain`. -/
def inTest (p : Pt) (t : Tri) : Bool := decide (0 ≤ inCircle t.a t.b t.c p)

/-- delaunay.go 50-82 `Insert`. -/
def insert (g : Geo) (d : D) (p : Pt) : Option D := do
  let r ← pmAdd d.pm p
  let d := { d with pm := r.1, unique := if r.2 = 1 then d.unique + 1 else d.unique,
                    numPoints := d.numPoints + 1 }
  let c ← g.cell p
  let (d, acc) ← removeLoop g true (inTest p) c.1 c.2 (d.cells c.1 c.2).length 0 d []
  fillEdges g p d (acc.foldl addTriEdges [])

/-- delaunay.go 95-110 `addPoint`. -/
def addPoint (p : Pt) (hull : List Pt) (po : Pt) : List Pt :=
  if po = p then hull else if po ∈ hull then hull else hull ++ [po]

/-- delaunay.go 116-118. -/
def addTriPoints (p : Pt) (hull : List Pt) (t : Tri) : List Pt :=
  addPoint p (addPoint p (addPoint p hull t.a) t.b) t.c

/-- delaunay.go 124-150: the comparison of `hull[i] = b` with `hull[j] = a`;
`none` is `panic("...")`. -/
def hullLess (p b a : Pt) : Option Bool :=
  if 0 ≤ w16 (a.x - p.x) ∧ w16 (b.x - p.x) < 0 then some true
  else if w16 (a.x - p.x) < 0 ∧ 0 ≤ w16 (b.x - p.x) then some false
  else if w16 (a.x - p.x) = 0 ∧ w16 (b.x - p.x) = 0 then
    (if 0 ≤ w16 (a.y - p.y) ∨ 0 ≤ w16 (b.y - p.y) then some (decide (b.y < a.y))
     else some (decide (a.y < b.y)))
  else
    let det := w64 (w16 (a.x - p.x) * w16 (b.y - p.y) - w16 (b.x - p.x) * w16 (a.y - p.y))
    if det < 0 then some true
    else if 0 < det then some false
    else none

/-- Insertion of one element into a sorted list. -/
def hullInsert (p v : Pt) : List Pt → List Pt
  | [] => [v]
  | u :: l => if hullLess p v u = some true then v :: u :: l else u :: hullInsert p v l

/-- delaunay.go 124-150 `sort.Slice`.  Simplification: the library sort is replaced by insertion
sort, and the sort is taken to panic whenever any pair of different positions would make the
comparison panic (the library compares only some pairs).  C21 shows that on the hulls that occur
the comparison is a strict total order, so every sorting algorithm gives this list. -/
def hullSort (p : Pt) (hull : List Pt) : Option (List Pt) :=
  if hull.all (fun u => hull.all (fun v => u == v || ((hullLess p u v).isSome && (hullLess p v u).isSome)))
  then some (hull.foldr (hullInsert p) [])
  else none

/-- geom.go 96-99 `ear`. -/
structure Ear where
  a : Pt
  b : Pt
  c : Pt
  score : Option ℚ
deriving DecidableEq

/-- geom.go 102-104 `computeScore`, applied to an ear with the given corners. -/
def mkEar (fl : ℚ → ℚ) (p a b c : Pt) : Ear := ⟨a, b, c, calculateScore fl a b c p⟩

/-- `e.score < lowestScore` (delaunay.go 171); `none` is `math.MaxFloat64`. -/
def scoreLt : Option ℚ → Option ℚ → Bool
  | some s, some t => decide (s < t)
  | some _, none => true
  | none, _ => false

/-- delaunay.go 158-162: the initial ears. -/
def initEars (fl : ℚ → ℚ) (p : Pt) (hull : List Pt) : List Ear :=
  (List.range hull.length).filterMap fun i => do
    let a ← hull[i]?
    let b ← hull[(i + 1) % hull.length]?
    let c ← hull[(i + 2) % hull.length]?
    some (mkEar fl p a b c)

/-- delaunay.go 166-176: position of the ear of lowest score (`i` is the position of the head
of the list, `low` and `best` the current lowest score and its position). -/
def lowestEar : List Ear → Nat → Option ℚ → Nat → Nat
  | [], _, _, best => best
  | e :: es, i, low, best =>
    if scoreLt e.score low then lowestEar es (i + 1) e.score i else lowestEar es (i + 1) low best

/-- delaunay.go 185-201: cut the ear at `index` from the list of ears. -/
def cutEar (fl : ℚ → ℚ) (p : Pt) (ears : List Ear) (index : Nat) : Option (List Ear) := do
  let e ← ears[index]?
  let before := if index = 0 then ears.length - 1 else index - 1
  let after := (index + 1) % ears.length
  let eb ← ears[before]?
  let ears1 := ears.set before (mkEar fl p eb.a eb.b e.c)
  let ea ← ears1[after]?
  let ears2 := ears1.set after (mkEar fl p e.a ea.b ea.c)
  some (ears2.eraseIdx index)

/-- delaunay.go 164-205: the ear loop and the last triangle.  The first argument is the number
of iterations left (the list shrinks by one in each). -/
def earLoop (g : Geo) (fl : ℚ → ℚ) (p : Pt) : Nat → D → List Ear → Option D
  | 0, d, ears => do
    let e ← ears[0]?
    addTriangle g d ⟨e.a, e.b, e.c⟩
  | n + 1, d, ears => do
    let index := lowestEar ears 0 none 0
    let e ← ears[index]?
    let d' ← addTriangle g d ⟨e.a, e.b, e.c⟩
    let ears' ← cutEar fl p ears index
    earLoop g fl p n d' ears'

/-- delaunay.go 86-206 `Remove`. -/
def remove (g : Geo) (fl : ℚ → ℚ) (d : D) (p : Pt) : Option D := do
  let d := { d with numPoints := d.numPoints - 1 }
  let r ← pmRemove d.pm p
  let d := { d with pm := r.1 }
  if r.2 ≠ 0 then some d
  else
    let d := { d with unique := d.unique - 1 }
    let c ← g.cell p
    let (d, acc) ← removeLoop g false (·.hasVertex p) c.1 c.2 (d.cells c.1 c.2).length 0 d []
    let hull ← hullSort p (acc.foldl (addTriPoints p) [])
    let ears := initEars fl p hull
    earLoop g fl p (ears.length - 3) d ears

/-- delaunay.go 259-272 `IterTriangles`: the triangles passed to the callback, in order. -/
def iterTriangles (d : D) : List Tri :=
  d.tris.filter fun t => !t.freed &&
    (t.a != d.sup.a && t.b != d.sup.a && t.c != d.sup.a &&
     t.a != d.sup.b && t.b != d.sup.b && t.c != d.sup.b &&
     t.a != d.sup.c && t.b != d.sup.c && t.c != d.sup.c)

/-- grid.go 121-132: the loop of `HasPoint` over one box. -/
def hasPointLoop (d : D) (p : Pt) : List Nat → Option Bool
  | [] => some false
  | k :: ks =>
    match d.tris[k]? with
    | none => none
    | some t => if t.freed then none else if t.hasVertex p then some true else hasPointLoop d p ks

/-- delaunay.go 307-309 and grid.go 105-133 `HasPoint`. -/
def hasPoint (g : Geo) (d : D) (p : Pt) : Option Bool := do
  let c ← g.cell p
  hasPointLoop d p (d.cells c.1 c.2)

/-- delaunay.go 323-339: one comparison of `GetClosestTo`. -/
def closer (p : Pt) (best : Int × Pt) (v : Pt) : Int × Pt :=
  if distSq p v < best.1 then (distSq p v, v) else best

/-- delaunay.go 312-342 `GetClosestTo`. -/
def getClosestTo (d : D) (p : Pt) : Pt :=
  (d.tris.foldl (fun best t =>
    if t.freed then best else closer p (closer p (closer p best t.a) t.b) t.c)
    ((9223372036854775807 : Int), (⟨0, 0⟩ : Pt))).2

/-- delaunay.go 275-277 `NumPoints`. -/
def numPoints (d : D) : Int := d.numPoints

/-- Go `copy(dst, src)`. -/
def goCopy {α} (dst src : List α) : List α := src.take dst.length ++ dst.drop src.length

/-- The pattern of delaunay.go 281-298, grid.go 259-266, pointmap.go 87-94: reslice the buffer to
its capacity (`buf` has `cap` elements), cut or reallocate it to the length of the source, copy. -/
def setSlice {α} (zero : α) (buf src : List α) : List α :=
  let b := if src.length < buf.length then buf.take src.length
    else if buf.length < src.length then List.replicate src.length zero
    else buf
  goCopy b src

/-- Spare capacity behind the slices of a `Delaunay`: the elements of the underlying arrays from
the start of each slice to its capacity. -/
structure Bufs where
  tris : List Tri
  free : List Nat
  cells : Nat → Nat → List Nat
  pm : Nat → List Entry

/-- delaunay.go 280-304 `Set` (with grid.go 256-269 and pointmap.go 85-96), for two
triangulations of grids with the same number of boxes and the same table size.  `numPoints` and
`uniquePoints` of the receiver stay as they are. -/
def setFrom (d : D) (bufs : Bufs) (o : D) : D :=
  { d with
    tris := setSlice ⟨⟨0, 0⟩, ⟨0, 0⟩, ⟨0, 0⟩⟩ bufs.tris o.tris
    free := (setSlice 0 bufs.free o.free.reverse).reverse
    cells := fun x y => setSlice 0 (bufs.cells x y) (o.cells x y)
    pm := (List.range d.pm.length).map (fun i => setSlice ⟨0, 0, 0⟩ (bufs.pm i) (o.pm.getD i []))
    sup := o.sup }

end Verif.Incr

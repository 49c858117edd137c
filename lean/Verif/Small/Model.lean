import Verif.Alg.Algo
import Verif.Alg.PolyFun
import Verif.Raster.Model
import Verif.Fit.Model

/-!
# Model of the small parts: mutation, generators, point groups, colours, rendering, image conversion, polygons

`fl` is the rounding of float64 operations.  NaN and infinities are not modelled, except that an average of no colours is
`none`.  Random sources are arbitrary state machines.
-/

namespace Verif.Small

open Verif.Raster Verif.Fit Verif.Alg
open Verif.Incr hiding Entry

/-! ### Random sources -/

/-- A source of random numbers with states `σ`: `random.Float32` (random.go 19-21), `random.NormFloat64` (random.go 51-79),
`rand.Float64` and `rand.Intn` of math/rand. -/
structure Source (σ : Type) where
  float32 : σ → ℚ × σ
  norm : σ → ℚ × σ
  float64 : σ → ℚ × σ
  intn : Nat → σ → Nat × σ

/-- The documented ranges of math/rand. -/
structure Source.OK {σ : Type} (r : Source σ) : Prop where
  float64 : ∀ s, 0 ≤ (r.float64 s).1 ∧ (r.float64 s).1 < 1
  intn : ∀ n s, 1 ≤ n → (r.intn n s).1 < n

/-! ### normgeom -/

/-- normpoint.go 17-21: one coordinate of `Constrain`. -/
def clamp (x : ℚ) : ℚ := if x > 1 then 1 else if x < 0 then 0 else x

/-- normpoint.go 16-28 `Constrain`. -/
def constrain (p : NP) : NP := ⟨clamp p.x, clamp p.y⟩

/-- normpoint.go 31-36 `Dist`, with `sq` for `math.Sqrt`. -/
def dist (fl sq : ℚ → ℚ) (a b : NP) : ℚ :=
  let dX := fl (a.x - b.x)
  let dY := fl (a.y - b.y)
  sq (fl (fl (dX * dX) + fl (dY * dY)))

/-- The memory of point slices: array, index. -/
structure Mem where
  cell : Nat → Nat → NP
  next : Nat

/-- A slice of points (normpoint.go 39 `NormPointGroup`): array, offset, length. -/
structure Slice where
  arr : Nat
  off : Nat
  len : Nat
deriving DecidableEq

/-- The points of a slice. -/
def Mem.read (m : Mem) (s : Slice) : List NP := (List.range s.len).map fun i => m.cell s.arr (s.off + i)

/-- `p[i] = v`, `none` is an index out of range. -/
def Mem.write (m : Mem) (s : Slice) (i : Nat) (v : NP) : Option Mem :=
  if i < s.len then some { m with cell := fun a j => if a = s.arr ∧ j = s.off + i then v else m.cell a j } else none

/-- The built-in `copy(dst, src)`, which copies as if through a temporary. -/
def Mem.copy (m : Mem) (dst src : Slice) : Mem :=
  { m with cell := fun a j =>
      if a = dst.arr ∧ dst.off ≤ j ∧ j < dst.off + min dst.len src.len then m.cell src.arr (src.off + (j - dst.off)) else m.cell a j }

/-- normpoint.go 43-49 `Set`. -/
def Mem.setGroup (m : Mem) (p other : Slice) : Option Mem := if p.len = other.len then some (m.copy p other) else none

/-- `make(NormPointGroup, n)`. -/
def Mem.make (m : Mem) (n : Nat) : Mem × Slice :=
  ({ cell := fun a j => if a = m.next then ⟨0, 0⟩ else m.cell a j, next := m.next + 1 }, ⟨m.next, 0, n⟩)

/-- normpoint.go 52-57 `Copy`. -/
def Mem.copyGroup (m : Mem) (p : Slice) : Mem × Slice :=
  let r := m.make p.len
  (r.1.copy r.2 p, r.2)

/-! ### mutation -/

section
variable {σ : Type}

/-- gaussian.go 17-30, iteration `i`: the points, the mutations reported and the state of the random source. -/
def gaussStep (r : Source σ) (fl : ℚ → ℚ) (rate amount : ℚ) (st : List NP × List Mut × σ) (i : Nat) : List NP × List Mut × σ :=
  match st.1[i]? with
  | none => st
  | some old =>
    let d := r.float32 st.2.2
    if d.1 < rate then
      let a := r.norm d.2
      let b := r.norm a.2
      let new := constrain ⟨fl (old.x + fl (fl (a.1 * amount) * (1 / 2))), fl (old.y + fl (fl (b.1 * amount) * (1 / 2)))⟩
      (st.1.set i new, st.2.1 ++ [⟨old, new, i⟩], b.2)
    else (st.1, st.2.1, d.2)

/-- gaussian.go 15-32 `Mutate`. -/
def gaussian (r : Source σ) (fl : ℚ → ℚ) (rate amount : ℚ) (s : σ) (ps : List NP) : List NP × List Mut × σ :=
  (List.range ps.length).foldl (gaussStep r fl rate amount) (ps, [], s)

/-- random.go (package mutation) 16-26, iteration `i`. -/
def randStep (r : Source σ) (fl : ℚ → ℚ) (rate amount : ℚ) (st : List NP × List Mut × σ) (i : Nat) : List NP × List Mut × σ :=
  match st.1[i]? with
  | none => st
  | some old =>
    let d := r.float64 st.2.2
    if d.1 < rate then
      let a := r.float64 d.2
      let b := r.float64 a.2
      let new := constrain ⟨fl (old.x + fl (fl (a.1 - 1 / 2) * amount)), fl (old.y + fl (fl (b.1 - 1 / 2) * amount))⟩
      (st.1.set i new, st.2.1 ++ [⟨old, new, i⟩], b.2)
    else (st.1, st.2.1, d.2)

/-- random.go (package mutation) 14-28 `Mutate`. -/
def randomMut (r : Source σ) (fl : ℚ → ℚ) (rate amount : ℚ) (s : σ) (ps : List NP) : List NP × List Mut × σ :=
  (List.range ps.length).foldl (randStep r fl rate amount) (ps, [], s)

/-! ### generator -/

/-- random.go (package generator) 21-23: `n` random points, and the state of the source. -/
def randomPoints (r : Source σ) : Nat → σ → List NP × σ
  | 0, s => ([], s)
  | n + 1, s =>
    let p := randomPoints r n s
    let a := r.float64 p.2
    let b := r.float64 a.2
    (p.1 ++ [⟨a.1, b.1⟩], b.2)

/-- random.go (package generator) 13-26 `Generate`; no point for negative `n`. -/
def genRandom (r : Source σ) (n : Int) (s : σ) : List NP := (randomPoints r n.toNat s).1

/-- spaced.go 50-67 `closestTo`: the distance (-1 if there is none); `none` is the panic of `group[0]`. -/
def closestTo (fl sq : ℚ → ℚ) (point : NP) (group : List NP) : Option (NP × ℚ) :=
  match group with
  | [] => none
  | g0 :: _ => some (group.foldl (fun c p =>
      if p = point then c else
        let d := dist fl sq p point
        if c.2 = -1 ∨ d < c.2 then (p, d) else c) (g0, -1))

/-- spaced.go 28-45, one iteration: points, `temp`, state of the source.  `none` is a panic of `rand.Intn` or of an index. -/
def spacedStep (r : Source σ) (fl sq : ℚ → ℚ) (n : Int) (decrement : ℚ) (st : List NP × ℚ × σ) : Option (List NP × ℚ × σ) := do
  if n ≤ 0 then none
  let ran := r.intn n.toNat st.2.2
  let p ← st.1[ran.1]?
  let curr ← closestTo fl sq p st.1
  let a := r.float64 ran.2
  let b := r.float64 a.2
  let q := constrain ⟨fl (p.x + fl (fl (a.1 - 1 / 2) * st.2.1)), fl (p.y + fl (fl (b.1 - 1 / 2) * st.2.1))⟩
  let new ← closestTo fl sq q st.1
  return (if new.2 > curr.2 then st.1.set ran.1 q else st.1, fl (st.2.1 * decrement), b.2)

/-- Repeat `k` times. -/
def iterate {α : Type} (f : α → Option α) : Nat → α → Option α
  | 0, a => some a
  | k + 1, a => (iterate f k a).bind f

/-- spaced.go 17-48 `Generate`. -/
def genSpaced (r : Source σ) (fl sq : ℚ → ℚ) (iterations : Nat) (decrement : ℚ) (n : Int) (s : σ) : Option (List NP) :=
  let p := randomPoints r n.toNat s
  (iterate (spacedStep r fl sq n decrement) iterations (p.1, 1, p.2)).map Prod.fst

end

/-! ### color -/

/-- color.go 17-20 `AverageRGB`. -/
structure Avg where
  rgb : RGB
  count : Nat
deriving DecidableEq

/-- The zero value of `AverageRGB`. -/
def Avg.zero : Avg := ⟨⟨0, 0, 0⟩, 0⟩

/-- color.go 23-28 `Add`. -/
def Avg.add (fl : ℚ → ℚ) (a : Avg) (c : RGB) : Avg :=
  ⟨⟨fl (a.rgb.r + c.r), fl (a.rgb.g + c.g), fl (a.rgb.b + c.b)⟩, a.count + 1⟩

/-- color.go 31-34 `Average`; `none` is the NaN of 0/0. -/
def Avg.average (fl : ℚ → ℚ) (a : Avg) : Option RGB :=
  if a.count = 0 then none else
    let c := fl a.count
    some ⟨fl (a.rgb.r / c), fl (a.rgb.g / c), fl (a.rgb.b / c)⟩

/-! ### render -/

/-- rgbdata.go 17-19 `RGBAt`; `none` is an index out of range. -/
def rgbAt (I : Img) (x y : Int) : Option RGB :=
  if 0 ≤ x ∧ x < I.w ∧ 0 ≤ y ∧ y < I.h then some (I.px x.toNat y.toNat) else none

/-- triangles.go (package render) 29-31: add the colours of the pixels. -/
def addPixels (fl : ℚ → ℚ) (I : Img) (a : Avg) (qs : List (Int × Int)) : Option Avg :=
  qs.foldlM (fun a q => (rgbAt I q.1 q.2).map (a.add fl)) a

/-- triangles.go (package render) 34-40: without pixels, add the colours at the clamped corners. -/
def addCorners (fl : ℚ → ℚ) (I : Img) (a : Avg) (ps : List Pt) : Option Avg :=
  if a.count = 0 then addPixels fl I a (ps.map fun p => (min p.x ((I.w : Int) - 1), min p.y ((I.h : Int) - 1))) else some a

/-- geom/point.go 15-17 `ToNorm`. -/
def toNorm (fl : ℚ → ℚ) (w h : Nat) (p : Pt) : NP := ⟨fl (p.x / w), fl (p.y / h)⟩

/-- triangles.go (package render) 25-46 for one triangle: normalised vertices (geom/triangle.go 11-19) and the colour. -/
def renderTri (fl : ℚ → ℚ) (z : ℚ) (I : Img) (t : Tri) : Option (List NP × Option RGB) := do
  let a ← addPixels fl I Avg.zero (DDATriangle fl z t)
  let a ← addCorners fl I a [t.a, t.b, t.c]
  return ([t.a, t.b, t.c].map (toNorm fl I.w I.h), a.average fl)

/-- triangles.go (package render) 20-50 `TrianglesOnImage`. -/
def trianglesOnImage (fl : ℚ → ℚ) (z : ℚ) (I : Img) (ts : List Tri) : Option (List (List NP × Option RGB)) := ts.mapM (renderTri fl z I)

/-- polygons.go (package render) 21-48 for one polygon (geom/polygon.go 10-20 `ToNorm`). -/
def renderPoly (fl : ℚ → ℚ) (z : ℚ) (I : Img) (ps : List Pt) : Option (List NP × Option RGB) := do
  let a ← addPixels fl I Avg.zero ((fan ps).flatMap (DDATriangle fl z))
  let a ← addCorners fl I a ps
  return (ps.map (toNorm fl I.w I.h), a.average fl)

/-- polygons.go (package render) 16-52 `PolygonsOnImage`. -/
def polygonsOnImage (fl : ℚ → ℚ) (z : ℚ) (I : Img) (P : List (List Pt)) : Option (List (List NP × Option RGB)) := P.mapM (renderPoly fl z I)

/-! ### image -/

/-- What `ToData` uses of an `image.Image`: `Bounds().Max` and the 16-bit colours of `At(x, y).RGBA()`. -/
structure Source16 where
  maxX : Int
  maxY : Int
  at16 : Nat → Nat → Nat × Nat × Nat

/-- rgbdata.go 10-14 `RGBData` (width, height, rows) and 27-36 `NewData`; `none` is the panic of `make` with a negative length.  A negative width panics only if
there is a row to make. -/
def newData (w h : Int) : Option (Int × Int × List (List RGB)) :=
  if h < 0 ∨ (0 < h ∧ w < 0) then none else some (w, h, List.replicate h.toNat (List.replicate w.toNat ⟨0, 0, 0⟩))

/-- rgbdata.go 57-59 `convertColor`, from the uint32 value. -/
def convert (fl : ℚ → ℚ) (color : Nat) : ℚ := convertColor fl (color / 256)

/-- rgbdata.go 39-54 `ToData`: size and rows. -/
def toData (fl : ℚ → ℚ) (im : Source16) : Option (Int × Int × List (List RGB)) :=
  (newData im.maxX im.maxY).map fun d => (d.1, d.2.1, d.2.2.mapIdx fun y row => row.mapIdx fun x _ =>
    let c := im.at16 x y
    ⟨convert fl c.1, convert fl c.2.1, convert fl c.2.2⟩)

/-! ### polygons -/

/-- `math.Round`: half away from zero. -/
def mathRound (x : ℚ) : Int := if 0 ≤ x then ⌊x + 1 / 2⌋ else -⌊-x + 1 / 2⌋

/-- triangulator.go 50-55: the loop, with `pJ` the previous point. -/
def areaLoop (fl : ℚ → ℚ) : ℚ → NP → List NP → ℚ
  | area, _, [] => area
  | area, pJ, pI :: ps => areaLoop fl (fl (area + fl (fl (pJ.x + pI.x) * fl (pJ.y - pI.y)))) pI ps

/-- triangulator.go 46-58 `Area`. -/
def polyArea (fl : ℚ → ℚ) (ps : List NP) : Int :=
  mathRound |fl ((match ps.getLast? with
    | none => 0
    | some l => areaLoop fl 0 l ps) / 2)|

/-- polygonate.go 26-35: round the vertices of a polygon and drop one equal to the vertex kept before it. -/
def polygonateOne (ps : List (ℚ × ℚ)) : List Pt :=
  ps.foldl (fun out p =>
    let q : Pt := ⟨mathRound p.1, mathRound p.2⟩
    if out.getLast? = some q then out else out ++ [q]) []

end Verif.Small

import Verif.Small.Polygonate

/-!
# Exporting triangles: `Triangulate`

The library `fogleman/delaunay` is a parameter: it takes points and returns the list `Triangles` of indices.
-/

namespace Verif.Small

open Verif.Raster Verif.Fit Verif.Alg Verif.Float Verif.Tri
open Verif.Incr hiding trunc Entry

/-- triangulator.go 19-22: a point given to the library; its coordinates are integers stored as float64. -/
def groupPoint (fl : ℚ → ℚ) (w h : Nat) (p : NP) : Pt := ⟨mathRound (fl (p.x * w)), mathRound (fl (p.y * h))⟩

/-- triangulator.go 32-39: the triangle with number `i`; `none` is an index out of range. -/
def pickTriangle (group : List Pt) (triangles : List Nat) (i : Nat) : Option Tri := do
  let a ← triangles[3 * i]?.bind (group[·]?)
  let b ← triangles[3 * i + 1]?.bind (group[·]?)
  let c ← triangles[3 * i + 2]?.bind (group[·]?)
  return ⟨a, b, c⟩

/-- triangulator.go 12-42 `Triangulate`, with the library `lib`. -/
def triangulate (lib : List Pt → List Nat) (fl : ℚ → ℚ) (w h : Nat) (ps : List NP) : Option (List Tri) :=
  let group := ps.map (groupPoint fl w h)
  let triangles := lib group
  (List.range (triangles.length / 3)).mapM (pickTriangle group triangles)

end Verif.Small

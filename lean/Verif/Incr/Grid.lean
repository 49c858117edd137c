import Verif.Incr.Model
import Verif.Float.Sqrt

/-!
# Model of the float part of the circumcircle grid

Float operations are parameters (`FloatOps`), so that the theorems hold for a family of roundings;
`ieee` is the instance with round-to-nearest-even.  A conversion float32 to float64 is exact.
-/

namespace Verif.Incr

open Verif.Float

/-- Rounding of float64 and float32 operations, and `math.Sqrt`. -/
structure FloatOps where
  r64 : ℚ → ℚ
  r32 : ℚ → ℚ
  sqrt : ℚ → ℚ

/-- IEEE 754 round to nearest even. -/
def ieee : FloatOps := ⟨rne 53, rne 24, sqrt64⟩

/-- geom.go 63-66 `Circumcircle`. -/
structure Circ where
  cx : ℚ
  cy : ℚ
  rad : ℚ

/-- geom.go 69-93 `calcCircumcircle`.  A zero denominator (collinear vertices) is not reached: see
`DInv.nondeg`. -/
def calcCircumcircle (F : FloatOps) (v0 v1 v2 : Pt) : Circ :=
  let A := w16 (v1.x - v0.x)
  let B := w16 (v1.y - v0.y)
  let C := w16 (v2.x - v0.x)
  let D := w16 (v2.y - v0.y)
  let E := w64 (A * w16 (v0.x + v1.x) + B * w16 (v0.y + v1.y))
  let F' := w64 (C * w16 (v0.x + v2.x) + D * w16 (v0.y + v2.y))
  let G := F.r64 (w64 (2 * (A * w16 (v2.y - v1.y) - B * w16 (v2.x - v1.x))))
  let cx := F.r64 (F.r64 (w64 (D * E - B * F')) / G)
  let cy := F.r64 (F.r64 (w64 (A * F' - C * E)) / G)
  let dx := F.r64 (cx - v0.x)
  let dy := F.r64 (cy - v0.y)
  ⟨F.r32 cx, F.r32 cy, F.r32 (F.sqrt (F.r64 (F.r64 (dx * dx) + F.r64 (dy * dy))))⟩

/-- Go conversion `int(f)`: towards zero. -/
def trunc (q : ℚ) : ℤ := if 0 ≤ q then ⌊q⌋ else ⌈q⌉

/-- delaunay.go 37: the number of columns and of rows. -/
def gridN : ℤ := 10

/-- grid.go 20-21 `colPixels`, `rowPixels`. -/
def boxPixels (F : FloatOps) (w : Nat) : ℚ := F.r64 ((w : ℚ) / gridN)

/-- grid.go 33-51 (and 66-84): the boxes from `lo` to before `hi` along one axis, for a circle with
centre coordinate `c` and radius `rad`. -/
def loBox (F : FloatOps) (w : Nat) (c rad : ℚ) : ℤ :=
  let radius := F.r32 (rad + F.r32 (1 / 1000))
  max 0 (trunc (F.r64 (F.r32 (c - radius) / boxPixels F w)))

@[inherit_doc loBox]
def hiBox (F : FloatOps) (w : Nat) (c rad : ℚ) : ℤ :=
  let radius := F.r32 (rad + F.r32 (1 / 1000))
  min gridN ⌈F.r64 (F.r32 (c + radius) / boxPixels F w)⌉

/-- grid.go 107-116: the box of a coordinate along one axis. -/
def boxOf (F : FloatOps) (w : Nat) (x : ℤ) : ℤ :=
  let i := ⌊F.r64 (x / boxPixels F w)⌋
  if i = gridN then gridN - 1 else i

/-- grid.go: the geometry of the grid of a `w` x `h` image; an index out of range panics. -/
def gridGeo (F : FloatOps) (w h : Nat) : Geo where
  cover a b c x y :=
    let k := calcCircumcircle F a b c
    decide (loBox F w k.cx k.rad ≤ x ∧ (x : ℤ) < hiBox F w k.cx k.rad ∧
      loBox F h k.cy k.rad ≤ y ∧ (y : ℤ) < hiBox F h k.cy k.rad)
  cell p :=
    let x := boxOf F w p.x
    let y := boxOf F h p.y
    if 0 ≤ x ∧ x < gridN ∧ 0 ≤ y ∧ y < gridN then some (x.toNat, y.toNat) else none

end Verif.Incr

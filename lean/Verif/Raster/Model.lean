import Verif.Incr.Model
import Mathlib.Data.Rat.Floor

/-!
# Model of the triangle rasterizer

`fl` is the rounding of float64 operations.  Conversions of int to float64 are exact (numbers
below 2^53).  A rasterizer is modelled by the list of its callback calls, in order.
-/

namespace Verif.Raster

open Verif.Incr

/-- A callback call: `line(x0, x1, y)` or `block(x, y)`. -/
inductive Ev where
  | line (x0 x1 y : Int)
  | block (x y : Int)
deriving DecidableEq, Repr

/-- Go's conversion `int(q)`: truncation towards zero. -/
def trunc (q : ℚ) : Int := if 0 ≤ q then ⌊q⌋ else ⌈q⌉

/-- A float64 that may be infinite or not a number (the slope of a horizontal edge). -/
inductive Slope where
  | fin (q : ℚ)
  | pinf
  | ninf
  | nan

/-- `float64(a) / float64(b)`; a zero divisor is positive zero because it is converted from an int. -/
def fdiv (fl : ℚ → ℚ) (a b : Int) : Slope :=
  if b ≠ 0 then .fin (fl ((a : ℚ) / b)) else if 0 < a then .pinf else if a < 0 then .ninf else .nan

/-- IEEE comparison `a > b`. -/
def Slope.gt : Slope → Slope → Bool
  | .fin a, .fin b => decide (b < a)
  | .pinf, .fin _ => true
  | .pinf, .ninf => true
  | .fin _, .ninf => true
  | _, _ => false

/-- The finite value of a slope.  `z` stands for the value of an infinite slope; the theorems hold for
every `z`, that is, infinite slopes are never used to compute a coordinate. -/
def Slope.val (z : ℚ) : Slope → ℚ
  | .fin q => q
  | _ => z

/-- `m*float64(k) + b` in float64 arithmetic. -/
def madd (fl : ℚ → ℚ) (m : ℚ) (k : Int) (b : Int) : ℚ := fl (fl (m * k) + b)

/-- lines.go 13-31 and blocks.go 15-34: sort the vertices by decreasing y. -/
def sortY (t : Tri) : Pt × Pt × Pt :=
  let (p0, p1) := if t.b.y > t.a.y then (t.b, t.a) else (t.a, t.b)
  if t.c.y > p1.y then
    if t.c.y > p0.y then (t.c, p0, p1) else (p0, t.c, p1)
  else (p0, p1, t.c)

/-- The rows `lo <= i < hi` in increasing order. -/
def rows (lo hi : Int) : List Int := (List.range (hi - lo).toNat).map (fun j : Nat => lo + j)

/-- lines.go 121-127 `fillTriangleLines`. -/
def fillTriangleLines (fl : ℚ → ℚ) (z : ℚ) (minY maxY lX0 lX1 : Int) (m0 m1 : Slope) : List Ev :=
  (rows minY maxY).map fun i =>
    .line (trunc (madd fl (m0.val z) (i - minY) lX0)) (trunc (madd fl (m1.val z) (i - minY) lX1)) i

/-- lines.go 113-118 `flatTriangleLines`. -/
def flatTriangleLines (fl : ℚ → ℚ) (z : ℚ) (x0 y x2 y2 i2 p : Int) : List Ev :=
  fillTriangleLines fl z y2 y x2 p (fdiv fl (x2 - x0) (y2 - y)) (fdiv fl i2 (y2 - y))

/-- lines.go 103-105 `bottomTriangleLines`. -/
def bottomTriangleLines (fl : ℚ → ℚ) (z : ℚ) (x0 x1 y x2 y2 : Int) : List Ev :=
  flatTriangleLines fl z x2 y2 x0 y (x1 - x2) x1

/-- lines.go 108-110 `topTriangleLines`. -/
def topTriangleLines (fl : ℚ → ℚ) (z : ℚ) (x0 x1 y x2 y2 : Int) : List Ev :=
  flatTriangleLines fl z x0 y x2 y2 (x2 - x1) x2

/-- lines.go 58-100 `normalTriangleLines`. -/
def normalTriangleLines (fl : ℚ → ℚ) (z : ℚ) (x0 y0 x1 y1 x2 y2 : Int) : List Ev :=
  let m0 := fdiv fl (x2 - x0) (y2 - y0)
  let m1 := fdiv fl (x2 - x1) (y2 - y1)
  let swap := m0.gt m1
  let (m0, m1) := if swap then (m1, m0) else (m0, m1)
  let first := (rows y2 y1).map fun i =>
    Ev.line (trunc (madd fl (m0.val z) (i - y2) x2)) (trunc (madd fl (m1.val z) (i - y2) x2)) i
  let m := fdiv fl (x1 - x0) (y1 - y0)
  let (m0, b0, d1) := if swap then (m, x1, y1 - y2) else (m0, x2, 0)
  let (m1, b1, d0) := if swap then (m1, x2, 0) else (m, x1, y1 - y2)
  let second := (rows y1 y0).map fun i =>
    Ev.line (trunc (madd fl (m0.val z) (i - y1 + d0) b0)) (trunc (madd fl (m1.val z) (i - y1 + d1) b1)) i
  first ++ second

/-- lines.go 7-54 `DDATriangleLines`. -/
def DDATriangleLines (fl : ℚ → ℚ) (z : ℚ) (t : Tri) : List Ev :=
  let (p0, p1, p2) := sortY t
  if p1.y = p2.y then
    let (xa, xb) := if p2.x < p1.x then (p2.x, p1.x) else (p1.x, p2.x)
    bottomTriangleLines fl z xa xb p1.y p0.x p0.y
  else if p0.y = p1.y then
    let (xa, xb) := if p0.x > p1.x then (p1.x, p0.x) else (p0.x, p1.x)
    topTriangleLines fl z xa xb p0.y p2.x p2.y
  else normalTriangleLines fl z p0.x p0.y p1.x p1.y p2.x p2.y

/-- The pixels of one callback call: pixels.go 11-13 for a line; the `bs` x `bs` pixels of a block
(pixels.go of fitness, 84-97). -/
def Ev.pixels (bs : Nat) : Ev → List (Int × Int)
  | .line x0 x1 y => (rows x0 x1).map (fun x => (x, y))
  | .block x y => (rows y (y + bs)).flatMap fun y' => (rows x (x + bs)).map (fun x' => (x', y'))

/-- pixels.go 9-15 `DDATriangle`: the pixels visited, in order. -/
def DDATriangle (fl : ℚ → ℚ) (z : ℚ) (t : Tri) : List (Int × Int) :=
  (DDATriangleLines fl z t).flatMap (Ev.pixels 0)

/-- blocks.go 81-84 and 153-156: the blocks from `x` to the right, and the final `x`.  The first argument
bounds the number of iterations. -/
def blockRun (bs : Nat) (minX : ℚ) (y : Int) : Nat → Int → List Ev × Int
  | 0, x => ([], x)
  | n + 1, x =>
    if ((x + bs : Int) : ℚ) < minX then
      let r := blockRun bs minX y n (x + bs)
      (.block x y :: r.1, r.2)
    else ([], x)

/-- blocks.go 59-90 and 131-162: one group of `bs` rows, `rs` in the order of the code, whose ends are `i`
and `top`; `y` is the row of the blocks; `L` and `R` are the x coordinates of the two edges.
`none` is the `break`. -/
def group (L R : Int → ℚ) (bs : Nat) (rs : List Int) (i top y : Int) : Option (List Ev) :=
  let maxX := max (L i) (L top)
  let minX := min (R i) (R top)
  if minX ≤ ((trunc maxX + bs : Int) : ℚ) then none
  else
    let left := rs.map fun r => Ev.line (trunc (L r)) (trunc maxX) r
    let b := blockRun bs minX y (⌈minX⌉ - trunc maxX).toNat (trunc maxX)
    let right := rs.map fun r => Ev.line b.2 (trunc (R r)) r
    some (left ++ b.1 ++ right)

/-- blocks.go 57-91: groups upwards from row `i`; returns the calls and the final `i`.  The first argument
bounds the number of iterations. -/
def upLoop (L R : Int → ℚ) (bs : Nat) (y2 : Int) : Nat → Int → List Ev × Int
  | 0, i => ([], i)
  | n + 1, i =>
    if i > y2 then
      (group L R bs ((List.range bs).map fun y : Nat => i - y) i (i - bs + 1) (i - bs + 1)).elim ([], i) fun es =>
        let r := upLoop L R bs y2 n (i - bs)
        (es ++ r.1, r.2)
    else ([], i)

/-- blocks.go 94-99: the remaining rows, upwards. -/
def upLines (L R : Int → ℚ) (y2 i : Int) : List Ev :=
  (rows (y2 + 1) (i + 1)).reverse.map fun r => Ev.line (trunc (L r)) (trunc (R r)) r

/-- blocks.go 130-163: groups downwards from row `i`. -/
def downLoop (L R : Int → ℚ) (bs : Nat) (y0 : Int) : Nat → Int → List Ev × Int
  | 0, i => ([], i)
  | n + 1, i =>
    if i + bs < y0 then
      (group L R bs ((List.range bs).map fun y : Nat => i + y) i (i + bs - 1) i).elim ([], i) fun es =>
        let r := downLoop L R bs y0 n (i + bs)
        (es ++ r.1, r.2)
    else ([], i)

/-- blocks.go 166-170. -/
def downLines (L R : Int → ℚ) (y0 i : Int) : List Ev :=
  (rows i y0).map fun r => Ev.line (trunc (L r)) (trunc (R r)) r

/-- blocks.go 40-171 `normalTriangleBlocks`.  The bound on the iterations is the number of rows, which
is never reached when `bs` is positive. -/
def normalTriangleBlocks (fl : ℚ → ℚ) (z : ℚ) (x0 y0 x1 y1 x2 y2 : Int) (bs : Nat) : List Ev :=
  let m0 := fdiv fl (x2 - x0) (y2 - y0)
  let m1 := fdiv fl (x2 - x1) (y2 - y1)
  let swap := m0.gt m1
  let (m0, m1) := if swap then (m1, m0) else (m0, m1)
  let L := fun i : Int => madd fl (m0.val z) (i - y2) x2
  let R := fun i : Int => madd fl (m1.val z) (i - y2) x2
  let up := upLoop L R bs y2 (y1 - 1 - y2).toNat (y1 - 1)
  let m := fdiv fl (x1 - x0) (y1 - y0)
  let (m0, lX0, d1) := if swap then (m, x1, y1 - y2) else (m0, x2, 0)
  let (m1, lX1, d0) := if swap then (m1, x2, 0) else (m, x1, y1 - y2)
  let (lX0, lX1) := if y1 = y2 then (if x2 > x1 then (x1, x2) else (x2, x1)) else (lX0, lX1)
  let (m0, m1) := if y1 = y2 then (if m1.gt m0 then (m1, m0) else (m0, m1)) else (m0, m1)
  let L' := fun i : Int => madd fl (m0.val z) (i - y1 + d0) lX0
  let R' := fun i : Int => madd fl (m1.val z) (i - y1 + d1) lX1
  let down := downLoop L' R' bs y0 (y0 - y1).toNat y1
  up.1 ++ upLines L R y2 up.2 ++ (down.1 ++ downLines L' R' y0 down.2)

/-- blocks.go 10-37 `DDATriangleBlocks`. -/
def DDATriangleBlocks (fl : ℚ → ℚ) (z : ℚ) (t : Tri) (bs : Nat) : List Ev :=
  let (p0, p1, p2) := sortY t
  normalTriangleBlocks fl z p0.x p0.y p1.x p1.y p2.x p2.y bs

end Verif.Raster

import Verif.Raster.Model

/-!
# Model of the fitness functions: pixels, blocks, the error of a triangle

`fl` is the rounding of float64 operations.
-/

namespace Verif.Fit

open Verif.Incr Verif.Raster

/-- color.go 5-9 `RGB`. -/
structure RGB where
  r : ℚ
  g : ℚ
  b : ℚ
deriving DecidableEq, Repr

/-- image/data.go 5-8 `Data`: `Size()` is `(w, h)`, `RGBAt(x, y)` is `px x y`. -/
structure Img where
  w : Nat
  h : Nat
  px : Nat → Nat → RGB

/-- pixels.go 19-22 `pixel` and 63-66 `pixelN`. -/
structure Pixel where
  r : Int
  g : Int
  b : Int
  sq : Int
deriving DecidableEq, Repr

/-- `uint8(q)`. -/
def u8 (q : ℚ) : Int := trunc q % 256

/-- `uint16(q)`. -/
def u16 (q : ℚ) : Int := trunc q % 65536

/-- `uint32(q)`. -/
def u32 (q : ℚ) : Int := trunc q % 4294967296

/-- pixels.go 49 and 95: `c*255*c*255`. -/
def sqTerm (fl : ℚ → ℚ) (c : ℚ) : ℚ := fl (fl (fl (c * 255) * c) * 255)

/-- pixels.go 49 and 95: the sum of the three squares. -/
def sqSum (fl : ℚ → ℚ) (c : RGB) : ℚ := fl (fl (sqTerm fl c.r + sqTerm fl c.g) + sqTerm fl c.b)

/-- pixels.go 46-49, one pixel of `fromImage`. -/
def mkPixel (fl : ℚ → ℚ) (c : RGB) : Pixel :=
  ⟨u8 (fl (c.r * 255)), u8 (fl (c.g * 255)), u8 (fl (c.b * 255)), u32 (sqSum fl c)⟩

/-- pixels.go 92-95: add one pixel to a block sum, in uint16 and uint32 arithmetic. -/
def addPixelN (fl : ℚ → ℚ) (s : Pixel) (c : RGB) : Pixel :=
  ⟨(s.r + u16 (fl (c.r * 255))) % 65536, (s.g + u16 (fl (c.g * 255))) % 65536,
   (s.b + u16 (fl (c.b * 255))) % 65536, (s.sq + u32 (sqSum fl c)) % 4294967296⟩

/-- pixels.go 87-98, one entry `data.pixels[y][x]` of `fromImageN`. -/
def blockAt (fl : ℚ → ℚ) (I : Img) (n x y : Nat) : Pixel :=
  (List.range n).foldl (fun s i => (List.range n).foldl (fun s j => addPixelN fl s (I.px (x + i) (y + j))) s) ⟨0, 0, 0, 0⟩

/-- triangles.go 110-112: the counters of one triangle. -/
structure Sums where
  n : Int
  r : Int
  g : Int
  b : Int
  sq : Int
deriving DecidableEq, Repr

/-- triangles.go 121-124 and 130-134. -/
def Sums.add (s : Sums) (k : Int) (p : Pixel) : Sums := ⟨s.n + k, s.r + p.r, s.g + p.g, s.b + p.b, s.sq + p.sq⟩

/-- triangles.go 116-135 (polygons.go 112-131 is the same): one call of a rasterizer callback.  `none` is an
index out of range. -/
def sumStep (fl : ℚ → ℚ) (I : Img) (bs : Nat) (s : Sums) : Ev → Option Sums
  | .line x0 x1 y =>
    if 0 ≤ y ∧ y < I.h then
      let s' := if 0 ≤ x0 ∧ x1 ≤ I.w then
        (rows x0 x1).foldl (fun s x => s.add 0 (mkPixel fl (I.px x.toNat y.toNat))) s else s
      some { s' with n := s'.n + (x1 - x0) }
    else none
  | .block x y =>
    if 0 ≤ y ∧ y < (I.h : Int) - bs + 1 ∧ 0 ≤ x ∧ x < (I.w : Int) - bs + 1 then
      some (s.add (bs * bs) (blockAt fl I bs x.toNat y.toNat))
    else none

/-- triangles.go 110-135: the sums of one triangle. -/
def triSums (fl : ℚ → ℚ) (z : ℚ) (I : Img) (bs : Nat) (t : Tri) : Option Sums :=
  (DDATriangleBlocks fl z t bs).foldlM (sumStep fl I bs) ⟨0, 0, 0, 0, 0⟩

/-- triangles.go 136-139: the error of a triangle.  The sum of squares is int64 arithmetic. -/
def sumsDiff (fl : ℚ → ℚ) (s : Sums) : ℚ :=
  if s.n ≠ 0 then fl (fl s.sq - fl (fl (w64 (s.r * s.r + s.g * s.g + s.b * s.b)) / fl s.n)) else 0

/-- triangles.go 110-139: the value of a triangle that is not in the cache. -/
def triValue (fl : ℚ → ℚ) (z : ℚ) (I : Img) (bs : Nat) (t : Tri) : Option ℚ := (triSums fl z I bs t).map (sumsDiff fl)

/-- triangles.go 88: the area added for a triangle; coordinates are int16. -/
def areaTerm (fl : ℚ → ℚ) (t : Tri) : ℚ :=
  |fl (1 / 2 * fl (fl ((w16 (t.b.x - t.a.x) : ℚ) * w16 (t.c.y - t.a.y)) - fl ((w16 (t.c.x - t.a.x) : ℚ) * w16 (t.b.y - t.a.y))))|

/-- util.go 8 `maxPixelDifference`. -/
def maxPixelDifference : Int := 255 * 255 * 3

/-- triangles.go 153-159: the fitness from the accumulated difference and area. -/
def finish (fl : ℚ → ℚ) (I : Img) (difference area : ℚ) : ℚ :=
  let blank := fl (fl ((I.w * I.h : Nat) : ℚ) - area)
  let difference := fl (difference + fl (maxPixelDifference * blank))
  fl (1 - fl (difference / fl (maxPixelDifference * I.w * I.h : Int)))

/-- triangles.go 72-160 without a cache: the fitness of a list of triangles in the order they are iterated. -/
def evalTris (fl : ℚ → ℚ) (z : ℚ) (I : Img) (bs : Nat) (T : List Tri) : Option ℚ := do
  let r ← T.foldlM (fun (s : ℚ × ℚ) t => (triValue fl z I bs t).map fun v => (fl (s.1 + v), fl (s.2 + areaTerm fl t))) (0, 0)
  return finish fl I r.1 r.2

/-- util.go 11-13 `fastRound`. -/
def fastRound (fl : ℚ → ℚ) (n : ℚ) : Int := trunc (fl (n + 1 / 2))

/-- normpoint.go 9-13 `NormPoint`. -/
structure NP where
  x : ℚ
  y : ℚ
deriving DecidableEq, Repr

/-- util.go 15-20 `createPoint`. -/
def createPoint (fl : ℚ → ℚ) (p : NP) (w h : Nat) : Pt :=
  ⟨w16 (fastRound fl (fl (p.x * w))), w16 (fastRound fl (fl (p.y * h)))⟩

/-- rgbdata.go 57-59 `convertColor`, for the 8-bit value `k = color >> 8`. -/
def convertColor (fl : ℚ → ℚ) (k : Nat) : ℚ := fl (k / 255)

end Verif.Fit

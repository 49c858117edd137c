import Verif.Spec.Plane
import Verif.Incr.Grid

/-!
# Specification vocabulary for the Voronoi properties
-/

namespace Verif.Spec

open Verif.Tri (P2)
open Verif.Incr (Pt Tri InImg newSuperTriangle FloatOps)

/-- The sites of the diagram: the stored points and the three corners of the bounding triangle. -/
def Site (w h : Nat) (s : Multiset Pt) (v : Pt) : Prop := v ∈ s ∨ IsVertex (newSuperTriangle w h) v

/-- `o` is a corner of the Voronoi cell of `q`: at least two other sites are as near to `o` as `q`, and none is nearer. -/
def Corner (w h : Nat) (s : Multiset Pt) (q : Pt) (o : P2) : Prop :=
  (∃ u v, Site w h s u ∧ Site w h s v ∧ u ≠ q ∧ v ≠ q ∧ u ≠ v ∧ d2 o u = d2 o q ∧ d2 o v = d2 o q) ∧
    ∀ x, Site w h s x → d2 o q ≤ d2 o x

/-- A location as it is stored: rounded to float64, then to float32. -/
def stored (F : FloatOps) (o : P2) : ℚ × ℚ := (F.r32 (F.r64 o.x), F.r32 (F.r64 o.y))

/-- `cs` lists the stored corners of the cell of `q`, without repetition. -/
def ListsCorners (F : FloatOps) (w h : Nat) (s : Multiset Pt) (q : Pt) (cs : List (ℚ × ℚ)) : Prop :=
  cs.Nodup ∧ ∀ c, c ∈ cs ↔ ∃ o, Corner w h s q o ∧ c = stored F o

/-- Seen from `q`, the directions of the stored locations `c` and `c'` are on the same side of the vertical through `q`, not both on
it, and the two products whose comparison would tell them apart round to the same float64. -/
def Clash (F : FloatOps) (q : Pt) (c c' : ℚ × ℚ) : Prop :=
  let x := F.r64 (c.1 - q.x)
  let y := F.r64 (c.2 - q.y)
  let x' := F.r64 (c'.1 - q.x)
  let y' := F.r64 (c'.2 - q.y)
  ((x < 0 ∧ x' < 0) ∨ (0 ≤ x ∧ 0 ≤ x' ∧ ¬ (x = 0 ∧ x' = 0))) ∧ F.r64 (x * y') = F.r64 (x' * y)

/-- Two corners of the cell of `q` with different stored locations clash. -/
def CellClash (F : FloatOps) (w h : Nat) (s : Multiset Pt) (q : Pt) : Prop :=
  ∃ o o', Corner w h s q o ∧ Corner w h s q o' ∧ stored F o ≠ stored F o' ∧ Clash F q (stored F o) (stored F o')

/-- No rounding. -/
def Exact (F : FloatOps) : Prop := (∀ x, F.r64 x = x) ∧ ∀ x, F.r32 x = x

/-- `q` is on the segment from `a` to `b`. -/
def OnSeg (a b q : ℚ × ℚ) : Prop := ∃ t, 0 ≤ t ∧ t ≤ 1 ∧ q = (a.1 + t * (b.1 - a.1), a.2 + t * (b.2 - a.2))

/-- Doubled signed area of the triangle `a b q`. -/
def area (a b q : ℚ × ℚ) : ℚ := (b.1 - a.1) * (q.2 - a.2) - (b.2 - a.2) * (q.1 - a.1)

/-- A strictly convex polygon, counterclockwise (with y up): at least three vertices, and every vertex other than the ends of an edge
is strictly to the left of the edge. -/
def ConvexPoly (l : List (ℚ × ℚ)) : Prop :=
  3 ≤ l.length ∧ ∀ (i j : Nat) (hi : i < l.length) (hj : j < l.length), j ≠ i → j ≠ (i + 1) % l.length →
    0 < area l[i] (l[(i + 1) % l.length]'(Nat.mod_lt _ (by omega))) l[j]

end Verif.Spec

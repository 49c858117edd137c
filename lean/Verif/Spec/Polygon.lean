import Verif.Spec.Plane

/-!
# Specification of convex polygons

Elementary plane geometry, independent of the functions of the model.
-/

namespace Verif.Spec

open Verif.Tri (P2)
open Verif.Incr (Pt)

/-- Any three vertices, taken in their order, turn left (right in an image, whose `y` axis points down).  The vertices are those of a
strictly convex polygon, listed once around. -/
def TurnsLeft (ps : List Pt) : Prop := ∀ a b c, [a, b, c].Sublist ps → 0 < area2 a b (loc c)

/-- Any three vertices turn the other way. -/
def TurnsRight (ps : List Pt) : Prop := ∀ a b c, [a, b, c].Sublist ps → area2 a b (loc c) < 0

/-- A strictly convex polygon. -/
def StrictConvex (ps : List Pt) : Prop := TurnsLeft ps ∨ TurnsRight ps

/-- The edges of a polygon, the last one back to the first vertex. -/
def edges : List Pt → List (Pt × Pt)
  | [] => []
  | p :: ps => (p :: ps).zip (ps ++ [p])

/-- `q` is in the open convex polygon: on the same side of all edges. -/
def PolyInterior (ps : List Pt) (q : P2) : Prop :=
  (∀ e ∈ edges ps, 0 < area2 e.1 e.2 q) ∨ ∀ e ∈ edges ps, area2 e.1 e.2 q < 0

/-- `q` is in the closed convex polygon. -/
def PolyClosed (ps : List Pt) (q : P2) : Prop :=
  (∀ e ∈ edges ps, 0 ≤ area2 e.1 e.2 q) ∨ ∀ e ∈ edges ps, area2 e.1 e.2 q ≤ 0

/-- Half-open membership, as `Owns` for triangles: `q`, pushed by an infinitesimal amount to the left and a square infinitesimal amount
upwards, is in the open polygon. -/
def PolyOwns (ps : List Pt) (q : P2) : Prop :=
  ∃ e0 : ℚ, 0 < e0 ∧ ∀ e : ℚ, 0 < e → e ≤ e0 → PolyInterior ps ⟨q.x - e, q.y + e ^ 2⟩

end Verif.Spec

import Verif.Alg.Cache
import Verif.Incr.Geom

/-!
# The polygon fitness function as an instance

The incremental Voronoi diagram is a parameter here: its constructor and methods, and the polygons `IterPolygons` gives.
-/

namespace Verif.Alg

open Verif.Raster Verif.Fit
open Verif.Incr hiding Entry

/-- polygons.go 78-88: round the vertices and drop one equal to the vertex before it. -/
def roundPoly (fl : ℚ → ℚ) (ps : List (ℚ × ℚ)) : List Pt :=
  ps.foldl (fun out p =>
    let q : Pt := ⟨fastRound fl p.1, fastRound fl p.2⟩
    if out.getLast? = some q then out else out ++ [q]) []

/-- polygons.go 85-86: the coordinates kept for the cache are int16. -/
def coords16 (ps : List Pt) : List Int := ps.flatMap fun p => [w16 p.x, w16 p.y]

/-- cache.go 91-100 `PolygonCacheData.Hash`, a uint64. -/
def polyHash (ps : List Pt) : Nat := ((coords16 ps).foldl (fun (h : Int) c => (h * 97 + c) % 2 ^ 64) 1).toNat

/-- geom/polygon.go 22-32 `Triangulate`: the fan around the first vertex. -/
def fan : List Pt → List Tri
  | p0 :: ps => (ps.zip ps.tail).map fun e => ⟨e.2, e.1, p0⟩
  | [] => []

/-- polygons.go 107-136: the value of a polygon that is not in the cache (polygon.go 5-9 `DDAPolygonBlocks`). -/
def polyValue (fl : ℚ → ℚ) (z : ℚ) (I : Img) (bs : Nat) (ps : List Pt) : Option ℚ :=
  (((fan ps).flatMap fun t => DDATriangleBlocks fl z t bs).foldlM (sumStep fl I bs) ⟨0, 0, 0, 0, 0⟩).map (sumsDiff fl)

/-- polygons.go 154: the fitness from the accumulated difference. -/
def polyFinish (fl : ℚ → ℚ) (I : Img) (difference : ℚ) : ℚ := fl (1 - fl (difference / fl (maxPixelDifference * I.w * I.h : Int)))

/-- polygons.go: the parts of `polygonsImageFunction` over any Voronoi diagram object. -/
def polyFun {V : Type} (new : Option V) (ins rem : V → Pt → Option V) (set : V → V → V) (polys : V → List (List (ℚ × ℚ)))
    (fl : ℚ → ℚ) (z : ℚ) (I : Img) (bs : Nat) : Fun V (List Pt) where
  new := new
  ins d p := ins d (createPoint fl p I.w I.h)
  rem d p := rem d (createPoint fl p I.w I.h)
  set := set
  keys d := (polys d).map (roundPoly fl)
  hash := polyHash
  same a b := decide (coords16 a = coords16 b)
  val := polyValue fl z I bs
  fin l := polyFinish fl I (l.foldl (fun s x => fl (s + x.2)) 0)

/-- polygons.go 31-155 without a cache. -/
def evalPolys (fl : ℚ → ℚ) (z : ℚ) (I : Img) (bs : Nat) (P : List (List (ℚ × ℚ))) : Option ℚ := do
  let r ← P.foldlM (fun s p => (polyValue fl z I bs (roundPoly fl p)).map fun v => fl (s + v)) 0
  return polyFinish fl I r

/-- Coordinates an int16 holds. -/
def Int16Poly (ps : List Pt) : Prop := ∀ p ∈ ps, (-32768 ≤ p.x ∧ p.x ≤ 32767) ∧ -32768 ≤ p.y ∧ p.y ≤ 32767

theorem coords16_inj : ∀ {a b : List Pt}, Int16Poly a → Int16Poly b → coords16 a = coords16 b → a = b
  | [], [], _, _, _ => rfl
  | [], q :: b, _, _, h => by simp [coords16] at h
  | p :: a, [], _, _, h => by simp [coords16] at h
  | p :: a, q :: b, ha, hb, h => by
    have hp := ha p (by simp)
    have hq := hb q (by simp)
    simp only [coords16, List.flatMap_cons, List.cons_append, List.nil_append, List.cons.injEq] at h
    obtain ⟨h1, h2, h3⟩ := h
    rw [w16_id hp.1.1 hp.1.2, w16_id hq.1.1 hq.1.2] at h1
    rw [w16_id hp.2.1 hp.2.2, w16_id hq.2.1 hq.2.2] at h2
    have : a = b := coords16_inj (fun r hr => ha r (by simp [hr])) (fun r hr => hb r (by simp [hr])) h3
    cases p
    cases q
    simp_all

section
variable {V : Type} {new : Option V} {ins rem : V → Pt → Option V} {set : V → V → V} {polys : V → List (List (ℚ × ℚ))}
  {fl : ℚ → ℚ} {z : ℚ} {I : Img} {bs : Nat}

theorem same_poly : SameOK (polyFun new ins rem set polys fl z I bs) Int16Poly := by
  intro a b ha hb h
  have : a = b := coords16_inj ha hb (of_decide_eq_true h)
  rw [this]

theorem plain_poly (d : V) : plain (polyFun new ins rem set polys fl z I bs) d = evalPolys fl z I bs (polys d) := by
  have key : ∀ (P : List (List (ℚ × ℚ))) (s : ℚ),
      P.foldlM (fun s p => (polyValue fl z I bs (roundPoly fl p)).map fun v => fl (s + v)) s =
      (vals (polyFun new ins rem set polys fl z I bs) (P.map (roundPoly fl))).map fun l => l.foldl (fun s x => fl (s + x.2)) s := by
    intro P
    induction P with
    | nil => intro s; rfl
    | cons p P ih =>
      intro s
      rw [List.foldlM_cons, List.map_cons, vals_cons]
      change _ = ((polyValue fl z I bs (roundPoly fl p)).bind _).map _
      cases polyValue fl z I bs (roundPoly fl p) with
      | none => rfl
      | some v =>
        simp only [Option.map_some, Option.bind_eq_bind, Option.bind_some]
        rw [ih]
        cases vals (polyFun new ins rem set polys fl z I bs) (P.map (roundPoly fl)) <;> rfl
  unfold plain evalPolys
  rw [key]
  change (vals (polyFun new ins rem set polys fl z I bs) ((polys d).map (roundPoly fl))).map _ = _
  cases vals (polyFun new ins rem set polys fl z I bs) ((polys d).map (roundPoly fl)) <;> rfl

end

end Verif.Alg

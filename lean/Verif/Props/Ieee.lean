import Verif.Props.Grid

/-!
# The triangulation with IEEE arithmetic on small images (C60-C62)

No assumption on arithmetic is left: `gridGeo ieee` and `rne 53` are the float32/float64 operations of the
code, rounded to nearest even.
-/

namespace Verif.Props

open Verif.Tri Verif.Spec Verif.Incr Verif.Float

/-- What a correct triangulation state looks like. -/
structure Valid (g : Geo) (w h : Nat) (s : Multiset Pt) (d : D) : Prop where
  /-- no stored point is strictly inside a circumcircle -/
  empty : ∀ t ∈ live d, ∀ p ∈ s, ¬ InsideCircle t p
  /-- triangles have positive area and do not overlap -/
  nondeg : ∀ t ∈ live d, NonDegenerate t
  disjoint : (live d).Pairwise (fun t u => ∀ q, ¬ (Interior t q ∧ Interior u q))
  /-- every location of the image belongs to exactly one triangle -/
  cover : ∀ q : P2, 0 ≤ q.x → q.x ≤ w → 0 ≤ q.y → q.y ≤ h → ∃! t, t ∈ live d ∧ Owns t q
  /-- the vertices are the stored points and the bounding vertices -/
  verts : ∀ v, (∃ t ∈ live d, IsVertex t v) ↔ v ∈ s ∨ IsVertex (newSuperTriangle w h) v
  iter : ∀ t, t ∈ iterTriangles d ↔ t ∈ live d ∧ t.a ∈ s ∧ t.b ∈ s ∧ t.c ∈ s
  /-- `HasPoint` is membership -/
  has : ∀ p, InImg w h p → hasPoint g d p = some (decide (p ∈ s))
  /-- `NumPoints` -/
  num : numPoints d = s.card
  /-- Euler's formula -/
  count : (live d).length = 2 * s.dedup.card + 1

theorem valid_of {g : Geo} {fl : ℚ → ℚ} {w h : Nat} {ops : List Op} {s : Multiset Pt} {m : Nat}
    (A : Arith g fl w h ops) (H : Hist w h ops s m) : ∃ d, exec g fl w h ops = some d ∧ Valid g w h s d := by
  obtain ⟨d, e⟩ := c06_c07_run_ok_partial A H
  refine ⟨d, e, c01_empty_circles_partial A H e, (c02_no_overlap_partial A H e).1,
    (c02_no_overlap_partial A H e).2.imp (fun h => h.2), c03_image_partial A H e, (c04_vertices_partial A H e).1,
    (c04_vertices_partial A H e).2, ?_, ?_, (c11_count_partial A H e).1⟩
  · intro p hp
    exact (A.inv H e).1.hasPoint_spec A.size A.geo H.inserted hp
  · have := (A.inv H e).1.np
    unfold numPoints
    rw [this]

/-- **C60**: with IEEE arithmetic, on images up to 4096 pixels (4K video and 12-megapixel photos included), and up to 5000 pixels
for points off the rows of the grid, every sequence of insertions of image points succeeds and gives a valid Delaunay triangulation. -/
theorem c60_ieee_insert {w h : Nat} {ops : List Op} {s : Multiset Pt} {m : Nat} (k : SizeOk w h)
    (hn : side w h ≤ 4096 ∨ side w h ≤ 5000 ∧ ∀ p, Op.ins p ∈ ops → OffRows h p) (hi : ∀ p, Op.rem p ∉ ops)
    (H : Hist w h ops s m) :
    ∃ d, exec (gridGeo ieee w h) (rne 53) w h ops = some d ∧ Valid (gridGeo ieee w h) w h s d :=
  hn.elim (fun hn => valid_of (arith_ieee k hn) H) fun hn => valid_of (arith_ieee_insert k hn.1 hn.2 hi) H

/-- 5000 by 3001 pixels: all points are off the rows. -/
example : SizeOk 5000 3001 ∧ side 5000 3001 ≤ 5000 ∧ (∀ p, OffRows 3001 p) ∧
    Hist 5000 3001 [.ins ⟨0, 0⟩, .ins ⟨4999, 2999⟩] ({⟨4999, 2999⟩} + {⟨0, 0⟩} : Multiset Pt) 2 := by
  refine ⟨⟨by norm_num, by norm_num, by norm_num, by norm_num, by norm_num⟩, by decide, offRows_coprime (by decide), ?_⟩
  have h1 := Hist.nil.ins (w := 5000) (h := 3001) ⟨0, 0⟩ ⟨by norm_num, by norm_num, by norm_num, by norm_num⟩ (by decide) (by decide)
  exact h1.ins ⟨4999, 2999⟩ ⟨by norm_num, by norm_num, by norm_num, by norm_num⟩ (by decide) (by decide)

/-- **C61**: the same with removals, up to 4096 pixels. -/
theorem c61_ieee_remove {w h : Nat} {ops : List Op} {s : Multiset Pt} {m : Nat} (k : SizeOk w h)
    (hn : side w h ≤ 4096) (H : Hist w h ops s m) :
    ∃ d, exec (gridGeo ieee w h) (rne 53) w h ops = some d ∧ Valid (gridGeo ieee w h) w h s d :=
  valid_of (arith_ieee k hn) H

/-- A photo of 4032 by 3024 pixels, with a removal. -/
example : SizeOk 4032 3024 ∧ side 4032 3024 ≤ 4096 ∧
    Hist 4032 3024 [.ins ⟨0, 0⟩, .ins ⟨4031, 3023⟩, .rem ⟨0, 0⟩] (({⟨0, 0⟩} + {⟨4031, 3023⟩} : Multiset Pt).erase ⟨0, 0⟩) 2 := by
  refine ⟨⟨by norm_num, by norm_num, by norm_num, by norm_num, by norm_num⟩, by decide, ?_⟩
  have h1 := Hist.nil.ins (w := 4032) (h := 3024) ⟨0, 0⟩ ⟨by norm_num, by norm_num, by norm_num, by norm_num⟩ (by decide) (by decide)
  have h2 := h1.ins ⟨4031, 3023⟩ ⟨by norm_num, by norm_num, by norm_num, by norm_num⟩ (by decide) (by decide)
  exact h2.rem ⟨0, 0⟩ (by decide)

example : ∃ d, exec (gridGeo ieee 40 30) (rne 53) 40 30 demoOps = some d ∧ Valid (gridGeo ieee 40 30) 40 30 demoBag d :=
  c61_ieee_remove demo_size (by decide) demo_hist

end Verif.Props

import Verif.Props.Tiling

/-! # C106: any Delaunay triangulation of any points fills the hull, in locations and in pixels

C99 without general position. -/

namespace Verif.Props

open Verif.Tri Verif.Spec Verif.Float Verif.Raster Verif.Fit Verif.Small Verif.Alg
open Verif.Incr hiding trunc step run Entry
open MeasureTheory

theorem Parted.symm {t t' : Tri} : Parted t t' → Parted t' t := by
  rintro ⟨al, be, ga, h0, h1, h2⟩
  refine ⟨-al, -be, -ga, by simpa using h0, fun v hv => ?_, fun v hv => ?_⟩
  · linarith [h2 v hv]
  · linarith [h1 v hv]

instance : Std.Symm Parted := ⟨fun _ _ => Parted.symm⟩

/-- The triangles of a tiling cover all locations of the hull on no line through two points. -/
theorem Tiling.covers {P : List Pt} {T : List Tri} (D : Tiling P T) (q : ℝ × ℝ) (hq : q ∈ hull P) (hg : Generic P q) (hp : ∀ p ∈ P, q ≠ rloc p) : ∃ t ∈ T, q ∈ openTri t := by
  obtain ⟨t0, h0, hq0⟩ := hull_tri hg hp hq
  have cl : IsClosed (⋃ t ∈ T, shutTri t) := by
    have : (⋃ t ∈ T, shutTri t) = ⋃ t ∈ {t | t ∈ T}, shutTri t := rfl
    rw [this]
    exact (List.finite_toSet T).isClosed_biUnion fun t _ => shutTri_closed t
  have dn : Dense (Set.range (Prod.map ((↑) : ℚ → ℝ) ((↑) : ℚ → ℝ))) := (Rat.denseRange_cast (𝕜 := ℝ)).prodMap (Rat.denseRange_cast (𝕜 := ℝ))
  have sub : openTri t0 ⊆ ⋃ t ∈ T, shutTri t := by
    refine (dn.open_subset_closure_inter (openTri_open t0)).trans (closure_minimal ?_ cl)
    rintro _ ⟨h1, ⟨⟨x, y⟩, rfl⟩⟩
    obtain ⟨t, ht, ho⟩ := D.cover ⟨x, y⟩ (mem_interior.mpr ⟨openTri t0, openTri_hull h0, openTri_open t0, h1⟩)
    exact Set.mem_iUnion₂.mpr ⟨t, ht, closed_shut ho⟩
  obtain ⟨t, ht, k1, k2, k3⟩ := Set.mem_iUnion₂.mp (sub hq0)
  have nd : rarea t.a t.b (rloc t.c) ≠ 0 := by
    have := D.nondeg t ht
    unfold NonDegenerate at this
    rw [rloc, rarea_cast]
    exact_mod_cast this
  obtain ⟨n1, n2, n3⟩ := nondeg_ne (D.nondeg t ht)
  have va := D.vertex t ht t.a (Or.inl rfl)
  have vb := D.vertex t ht t.b (Or.inr (Or.inl rfl))
  have vc := D.vertex t ht t.c (Or.inr (Or.inr rfl))
  exact ⟨t, ht, lt_of_le_of_ne k1 (mul_ne_zero nd (hg _ va _ vb n1)).symm, lt_of_le_of_ne k2 (mul_ne_zero nd (hg _ vb _ vc n2)).symm,
    lt_of_le_of_ne k3 (mul_ne_zero nd (hg _ vc _ va n3.symm)).symm⟩

theorem Tiling.distinct {P : List Pt} {T : List Tri} (D : Tiling P T) : (T.map verts).Nodup :=
  List.pairwise_map.mpr (D.apart.imp_of_mem fun {t _} ht _ ap => ap.ne (D.nondeg t ht))

theorem Tiling.between {P : List Pt} {T : List Tri} (D : Tiling P T) (t : Tri) (ht : t ∈ T) (t' : Tri) (ht' : t' ∈ T) (ne : verts t ≠ verts t') : ∃ al be ga, Between al be ga t t' := by
  have ap : Parted t t' := D.apart.forall ht ht' fun e => ne (by rw [e])
  exact parted_between (W := (· ∈ P)) (D.nondeg t ht) (D.nondeg t' ht') (D.vertex t ht) (D.vertex t' ht') (D.empty t ht) (D.empty t' ht') ap

/-- **C106**, area: if `Triangulate` returns a Delaunay triangulation, also of points of which several are on a circle, the areas add up to the area of the convex hull of the pixels of the points,
and almost every location of the hull is inside one of the triangles. -/
theorem c106_area {lib : List Pt → List Nat} {fl : ℚ → ℚ} {w h : Nat} {ps : List NP} {T : List Tri} (_hT : triangulate lib fl w h ps = some T) (D : Tiling (ps.map (groupPoint fl w h)) T) :
    volume (hull (ps.map (groupPoint fl w h))) = ENNReal.ofReal (((T.map area).sum : ℚ) : ℝ) ∧
      (∀ t ∈ T, openTri t ⊆ hull (ps.map (groupPoint fl w h))) ∧ ∀ᵐ q, q ∈ hull (ps.map (groupPoint fl w h)) → ∃ t ∈ T, q ∈ openTri t := by
  have sub : ∀ t ∈ T, openTri t ⊆ hull (ps.map (groupPoint fl w h)) := fun t ht =>
    openTri_hull (mem_allTris.mpr ⟨D.vertex t ht _ (Or.inl rfl), D.vertex t ht _ (Or.inr (Or.inl rfl)), D.vertex t ht _ (Or.inr (Or.inr rfl))⟩)
  refine ⟨hull_area sub ?_ D.covers, sub, ?_⟩
  · refine (List.pairwise_map.mp D.distinct).imp_of_mem fun {t t'} ht ht' ne => ?_
    obtain ⟨al, be, ga, B⟩ := D.between t ht t' ht' ne
    exact B.disjoint (D.nondeg t ht) (D.nondeg t' ht') ne
  · filter_upwards [generic_ae (ps.map (groupPoint fl w h))] with q hq hin
    exact D.covers q hin hq.1 hq.2

/-- **C106**, pixels: drawing these triangles with the rasterizer, in any arithmetic of 53 bits, visits every pixel whose lattice point `(x + 1, y)` is in the interior of the hull exactly once,
every other pixel at most once, and no pixel whose lattice point is outside the hull. -/
theorem c106_pixels {lib : List Pt → List Nat} {fl : ℚ → ℚ} (R : Rnd 53 fl) {w h : Nat} (hw : w ≤ 32767) (hh : h ≤ 32767) {ps : List NP}
    (hu : ∀ p ∈ ps, Alg.Unit01 p) {T : List Tri} (_hT : triangulate lib fl w h ps = some T) (D : Tiling (ps.map (groupPoint fl w h)) T) {fl' : ℚ → ℚ} (R' : Rnd 53 fl') (z : ℚ) (x y : Int) :
    (((x : ℝ) + 1, (y : ℝ)) ∈ interior (hull (ps.map (groupPoint fl w h))) → (T.flatMap (DDATriangle fl' z)).count (x, y) = 1) ∧
      (T.flatMap (DDATriangle fl' z)).count (x, y) ≤ 1 ∧
      (((x : ℝ) + 1, (y : ℝ)) ∉ hull (ps.map (groupPoint fl w h)) → (T.flatMap (DDATriangle fl' z)).count (x, y) = 0) := by
  have M := D.mesh hw hh (by
    intro v hv
    obtain ⟨p, hp, rfl⟩ := List.mem_map.mp hv
    exact groupPoint_in R hw hh (hu p hp))
  have hm : Monotone fl' := fun a b => R'.mono a b
  have fit : ∀ t ∈ T, ∀ v, IsVertex t v → Fit x v ∧ Small v := by
    intro t ht v hv
    have := M.img t ht v (by simpa [vlist, IsVertex] using hv)
    refine ⟨Or.inr ⟨this.1, this.2.2.1⟩, Int16.small ?_⟩
    unfold Int16
    omega
  have cc : (((corner x y).x : ℝ), ((corner x y).y : ℝ)) = ((x : ℝ) + 1, (y : ℝ)) := by
    unfold corner
    push_cast
    rfl
  have up : (T.flatMap (DDATriangle fl' z)).count (x, y) ≤ 1 := by
    rw [List.count_flatMap]
    exact M.once fl' R' z (x, y)
  refine ⟨fun hin => ?_, up, fun hout => ?_⟩
  · obtain ⟨t, ht, hne⟩ := hull_visit R' D.nondeg D.between D.distinct fit D.covers (x := x) (y := y) (by rw [cc]; exact hin)
    have low : 0 < (T.flatMap (DDATriangle fl' z)).count (x, y) := by
      rw [List.count_pos_iff, List.mem_flatMap]
      exact ⟨t, ht, List.count_pos_iff.mp (by rw [count_vis hm]; exact Nat.pos_of_ne_zero hne)⟩
    omega
  · by_contra hne
    have hmem := List.count_pos_iff.mp (Nat.pos_of_ne_zero hne)
    obtain ⟨t, ht, hq⟩ := List.mem_flatMap.mp hmem
    have : vis fl' t x y ≠ 0 := by
      rw [← count_vis hm z]
      exact (List.count_pos_iff.mpr hq).ne'
    apply hout
    rw [← cc]
    exact visit_hull R' (D.nondeg t ht) (D.vertex t ht) (fit t ht) this

/-! ### Points in general position -/

theorem Between.parted {al be ga : ℚ} {t t' : Tri} (B : Between al be ga t t') (nd : NonDegenerate t) (nd' : NonDegenerate t') (ne : verts t ≠ verts t') : Parted t t' := by
  refine ⟨al, be, ga, ?_, B.neg, B.pos⟩
  by_contra h0
  push Not at h0
  obtain ⟨v, -, hv⟩ := B.off nd nd' ne
  have := B.pos t'.a (Or.inl rfl)
  rw [h0.1, h0.2] at hv this
  linarith

/-- What a Delaunay library reports once each for points of which no four are on a circle is a tiling. -/
theorem library_tiling {lib : List Pt → List Nat} (L : LibOnce lib) {fl : ℚ → ℚ} {w h : Nat} {ps : List NP} (G : GeneralPosition (· ∈ ps.map (groupPoint fl w h))) {T : List Tri}
    (hT : triangulate lib fl w h ps = some T) : Tiling (ps.map (groupPoint fl w h)) T := by
  have rep := triangulate_reports L.ok hT
  have ver : ∀ t ∈ T, ∀ v, IsVertex t v → v ∈ ps.map (groupPoint fl w h) := by
    intro t ht v hv
    obtain ⟨i, a, b, c, -, h1, h2, h3⟩ := (rep t).mp ht
    rcases hv with rfl | rfl | rfl
    exacts [List.mem_of_getElem? h1, List.mem_of_getElem? h2, List.mem_of_getElem? h3]
  have nd : ∀ t ∈ T, NonDegenerate t := fun t ht => (L.sound _ t ((rep t).mp ht)).1
  have emp : ∀ t ∈ T, ∀ v ∈ ps.map (groupPoint fl w h), ¬ InsideCircle t v := fun t ht => (L.sound _ t ((rep t).mp ht)).2
  refine ⟨nd, ver, emp, ?_, fun q hq => ?_⟩
  · refine (List.pairwise_map.mp (triangulate_nodup L hT)).imp_of_mem fun {t t'} ht ht' ne => ?_
    obtain ⟨al, be, ga, B⟩ := delaunay_between G (nd t ht) (nd t' ht') (ver t ht) (ver t' ht') (emp t ht) (emp t' ht')
    exact B.parted (nd t ht) (nd t' ht') ne
  · obtain ⟨t, ht, e0, he0, hi⟩ := near_interior (library_covers L.toLibDelaunay G rep) hq (s := 1) one_ne_zero
    have ho : Owns t q := ⟨e0, he0, fun e h1 h2 => by simpa using hi e h1 h2⟩
    exact ⟨t, ht, closed_norm ((owns_iff (nd t ht) _).mp ho)⟩

/-- **C105**, points in general position (partial: IEEE arithmetic, images up to 6800000 pixels): the bound holds for every Delaunay library that reports no triangle twice. -/
theorem c105_general_partial {lib : List Pt → List Nat} (L : LibOnce lib) {w h : Nat} (hw1 : 1 ≤ w) (hh1 : 1 ≤ h) (hw : w ≤ 32767) (hh : h ≤ 32767) (hwh : w * h ≤ 6800000) {ps : List NP}
    (hu : ∀ p ∈ ps, Alg.Unit01 p) (G : GeneralPosition (· ∈ ps.map (groupPoint (rne 53) w h))) {r η : ℚ} (hr : 0 < r) (mw : 4 * r ≤ w)
    (net : ∀ x y : ℝ, 0 ≤ x → x ≤ w → 0 ≤ y → y ≤ h → ∃ p ∈ ps.map (groupPoint (rne 53) w h), ((p.x : ℝ) - x) ^ 2 + (p.y - y) ^ 2 ≤ (r : ℝ) ^ 2)
    (z : ℚ) (f : Nat → Nat → Fin 256 × Fin 256 × Fin 256) (E : Gentle (ofBytes (rne 53) w h f) (9 * r) η) :
    ∃ T out cs, triangulate lib (rne 53) w h ps = some T ∧ trianglesOnImage (rne 53) z (ofBytes (rne 53) w h f) T = some out ∧ out.map Prod.snd = cs.map some ∧
      (1 - 4 * r / w) * (1 - 4 * r / h) - η - 1 / 50000 ≤ quality z (ofBytes (rne 53) w h f) T cs := by
  obtain ⟨T, hT, -, -⟩ := c80_triangulate lib L.ok (rne 53) w h ps
  obtain ⟨out, cs, h1, h2, h3⟩ := c105_exported_partial hw1 hh1 hw hh hwh hu hT (library_tiling L G hT) hr mw net z f E
  exact ⟨T, out, cs, hT, h1, h2, h3⟩

/-! ### Cases -/

/-- The assumptions of `c106_area` hold of the square grid. -/
example : volume (hull evenPts) = ENNReal.ofReal (((evenTris.map area).sum : ℚ) : ℝ) := by
  have := (c106_area (lib := evenLib) (fl := rne 53) (w := 12) (h := 12) even_triangulate (by rw [evenPoints_pix]; exact evenTris_tiling)).1
  rwa [evenPoints_pix] at this

/-- The assumptions of `c106_pixels` hold of it: the pixel with the corner (6, 6), a vertex, is visited once. -/
example : (evenTris.flatMap (DDATriangle (rne 53) 0)).count (5, 6) = 1 := by
  refine (c106_pixels (lib := evenLib) (fl := rne 53) (w := 12) (h := 12) (rne_rnd (by norm_num)) (by norm_num) (by norm_num) evenPoints_unit even_triangulate
    (by rw [evenPoints_pix]; exact evenTris_tiling) (rne_rnd (by norm_num)) 0 5 6).1 ?_
  rw [evenPoints_pix]
  refine mem_interior.mpr ⟨openTri ⟨⟨0, 0⟩, ⟨12, 0⟩, ⟨6, 12⟩⟩, openTri_hull (mem_allTris.mpr (by decide +kernel)), openTri_open _, ?_⟩
  refine ⟨?_, ?_, ?_⟩ <;> (unfold rarea; norm_num)

/-- The assumptions of `c105_general_partial` hold of `loosePoints`. -/
example : ∃ T out cs, triangulate onceLib (rne 53) 192 128 loosePoints = some T ∧ trianglesOnImage (rne 53) 0 (theImage looseImage) T = some out ∧ out.map Prod.snd = cs.map some ∧
    5 / 1000 ≤ quality 0 (theImage looseImage) T cs := by
  have same : loosePoints.map (groupPoint (rne 53) 192 128) = loosePix := by decide +kernel
  have u : ∀ p ∈ loosePoints, Alg.Unit01 p := by unfold Alg.Unit01; decide +kernel
  have G : GeneralPosition (· ∈ loosePoints.map (groupPoint (rne 53) 192 128)) := by
    rw [same]
    exact general_sub (fun p hp => List.mem_append_left _ hp) (by decide +kernel) loose_general
  obtain ⟨T, out, cs, h1, h2, h3, h4⟩ := c105_general_partial onceLib_ok (w := 192) (h := 128) (by norm_num) (by norm_num) (by norm_num) (by norm_num) (by norm_num) u G (r := 63 / 2) (η := 0)
    (by norm_num) (by norm_num) (by rw [same, ← loose_pix]; exact loose_net) 0 (upperBytes looseImage) (loose_gentle _)
  refine ⟨T, out, cs, h1, h2, h3, le_trans ?_ h4⟩
  norm_num

end Verif.Props

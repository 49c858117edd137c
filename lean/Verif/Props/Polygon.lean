import Verif.Raster.Polygon
import Verif.Props.FitnessPos

/-!
# Rasterizing polygons (C83) and the value of a polygon (C84)
-/

namespace Verif.Props

open Verif.Tri Verif.Spec Verif.Float Verif.Raster Verif.Fit Verif.Alg
open Verif.Incr hiding trunc step run Entry

/-! ### C83 -/

/-- Number of visits of a pixel, from the definition of `DDAPolygon`. -/
theorem count_poly {fl : ℚ → ℚ} (hm : Monotone fl) (z : ℚ) (ps : List Pt) (x y : Int) :
    (DDAPolygon fl z ps).count (x, y) = ((fan ps).map fun t => vis fl t x y).sum := count_fan hm z ps x y

theorem corner_eq (x y : Int) : corner x y = ⟨x + 1, y⟩ := by unfold corner; push_cast; rfl

/-- **C83**, exact arithmetic: a strictly convex polygon visits exactly the pixels `(x, y)` for which the half-open polygon owns the lattice
point `(x + 1, y)`, each once. -/
theorem c83_exact (z : ℚ) {ps : List Pt} (h3 : 3 ≤ ps.length) (hc : StrictConvex ps) (h0 : ∀ v ∈ ps, 0 ≤ v.x ∧ 0 ≤ v.y) :
    (DDAPolygon id z ps).Nodup ∧ ∀ x y : Int, (x, y) ∈ DDAPolygon id z ps ↔ PolyOwns ps ⟨x + 1, y⟩ := by
  classical
  have key : ∀ x y : Int, (DDAPolygon id z ps).count (x, y) = if PolyOwns ps (corner x y) then 1 else 0 := by
    intro x y
    rw [count_poly monotone_id]
    obtain ⟨h1, h2⟩ := (fan_all (fl := id) (x := x) (y := y) h3 hc).2 fun q hq => Or.inr (h0 q hq)
    by_cases h : PolyOwns ps (corner x y)
    · rw [if_pos h, h1 h]
    · rw [if_neg h, h2 h]
  constructor
  · rw [List.nodup_iff_count_le_one]
    rintro ⟨x, y⟩
    rw [key]
    split <;> simp
  · intro x y
    rw [← List.count_pos_iff, key, ← corner_eq]
    split <;> rename_i hO <;> simp [hO]

/-- **C83**, rounded arithmetic: a strictly convex polygon visits no pixel twice, visits `(x, y)` if `(x + 1, y)` is inside the polygon,
and only if it is in the closed polygon. -/
theorem c83_rounded {fl : ℚ → ℚ} (R : Rnd 53 fl) (z : ℚ) {ps : List Pt} (h3 : 3 ≤ ps.length) (hc : StrictConvex ps)
    (h0 : ∀ v ∈ ps, Int16 v ∧ 0 ≤ v.x ∧ 0 ≤ v.y) :
    (DDAPolygon fl z ps).Nodup ∧ ∀ x y : Int, (PolyInterior ps ⟨x + 1, y⟩ → (x, y) ∈ DDAPolygon fl z ps) ∧
      ((x, y) ∈ DDAPolygon fl z ps → PolyClosed ps ⟨x + 1, y⟩) := by
  have hm : Monotone fl := fun a b => R.mono a b
  have S : ∀ x : Int, ∀ q ∈ ps, Small q ∧ Fit x q := fun x q hq => ⟨(h0 q hq).1.small, Or.inr (h0 q hq).2⟩
  constructor
  · rw [List.nodup_iff_count_le_one]
    rintro ⟨x, y⟩
    rw [count_poly hm]
    exact ((fan_all h3 hc).1 R (S x)).1
  · intro x y
    obtain ⟨-, h1, h2⟩ := (fan_all (y := y) h3 hc).1 R (S x)
    rw [← List.count_pos_iff, count_poly hm, ← corner_eq]
    exact ⟨fun h => by rw [h1 h]; exact Nat.one_pos, fun h => h2 h.ne'⟩

/-- **C83**, block by block: for every polygon, block size and monotone rounding the lines and blocks of `DDAPolygonBlocks` cover the pixels
of `DDAPolygon`, each as often. -/
theorem c83_blocks {fl : ℚ → ℚ} (hm : Monotone fl) (z : ℚ) (ps : List Pt) {bs : Nat} (hb : 1 ≤ bs) :
    ((DDAPolygonBlocks fl z ps bs).flatMap (Ev.pixels bs)).Perm (DDAPolygon fl z ps) := by
  unfold DDAPolygonBlocks DDAPolygon
  rw [List.flatMap_assoc]
  exact List.Perm.flatMap_left _ fun t _ => (c28_blocks hm z t hb).1

example : ((DDAPolygonBlocks (rne 53) 0 [⟨5, 0⟩, ⟨14, 3⟩, ⟨12, 11⟩, ⟨4, 12⟩, ⟨0, 6⟩] 3).flatMap (Ev.pixels 3)).Perm
    (DDAPolygon (rne 53) 0 [⟨5, 0⟩, ⟨14, 3⟩, ⟨12, 11⟩, ⟨4, 12⟩, ⟨0, 6⟩]) :=
  c83_blocks (fun a b => (rne_rnd (p := 53) (by norm_num)).mono a b) 0 _ (by norm_num)

theorem poly_box {w h : Nat} {ps : List Pt} (hp : ∀ v ∈ ps, 0 ≤ v.x ∧ v.x ≤ w ∧ 0 ≤ v.y ∧ v.y ≤ h) : ∀ t ∈ fan ps, InImage w h t := by
  intro t ht
  match ps, hp, ht with
  | p :: a :: l, hp, ht =>
    obtain ⟨u, v, rfl, hs⟩ := fan_mem ht
    have hu : u ∈ p :: a :: l := List.mem_cons_of_mem _ (hs.subset (by simp))
    have hv : v ∈ p :: a :: l := List.mem_cons_of_mem _ (hs.subset (by simp))
    intro q hq
    simp only [vlist, List.mem_cons, List.not_mem_nil, or_false] at hq
    rcases hq with rfl | rfl | rfl
    · exact hp _ hv
    · exact hp _ hu
    · exact hp _ (by simp)

/-- **C83**, bounds: for vertices in `[0, w] x [0, h]` every line and block reported is inside the image, as is every pixel. -/
theorem c83_bounds {fl : ℚ → ℚ} (R : Rnd 53 fl) (z : ℚ) {w h : Nat} (hw : w ≤ 32768) (hh : h ≤ 32768) {ps : List Pt}
    (hp : ∀ v ∈ ps, 0 ≤ v.x ∧ v.x ≤ w ∧ 0 ≤ v.y ∧ v.y ≤ h) {bs : Nat} (hb : 1 ≤ bs) :
    (∀ e ∈ DDAPolygonBlocks fl z ps bs, ValidCall w h bs e) ∧ ∀ q ∈ DDAPolygon fl z ps, IsPixel w h q := by
  constructor
  · intro e he
    obtain ⟨t, ht, he⟩ := List.mem_flatMap.mp he
    exact (c29_bounds R z hw hh t (poly_box hp t ht) hb).2.1 e he
  · intro q hq
    obtain ⟨t, ht, hq⟩ := List.mem_flatMap.mp hq
    exact (c29_bounds R z hw hh t (poly_box hp t ht) hb).2.2 q hq

/-- A pentagon. -/
def penta : List Pt := [⟨5, 0⟩, ⟨14, 3⟩, ⟨12, 11⟩, ⟨4, 12⟩, ⟨0, 6⟩]

theorem penta_convex : StrictConvex penta := by
  refine Or.inl fun a b c h => ?_
  have : [a, b, c] ∈ penta.sublists := List.mem_sublists.mpr h
  have key : ∀ l ∈ penta.sublists, ∀ a b c, l = [a, b, c] → 0 < area2 a b (loc c) := by
    have e : ∀ l ∈ penta.sublists.filter (fun l => l.length = 3), 0 < iori (l.getD 0 ⟨0, 0⟩) (l.getD 1 ⟨0, 0⟩) (l.getD 2 ⟨0, 0⟩) := by decide +kernel
    rintro l hl a b c rfl
    have := e _ (List.mem_filter.mpr ⟨hl, by simp⟩)
    rw [area_iori]
    exact this
  exact key _ this a b c rfl

example : (DDAPolygon (rne 53) 0 penta).Nodup ∧ (7, 6) ∈ DDAPolygon (rne 53) 0 penta := by
  have h := c83_rounded (rne_rnd (by norm_num)) 0 (by decide) penta_convex (by unfold Int16; decide)
  refine ⟨h.1, (h.2 7 6).1 (Or.inl ?_)⟩
  unfold penta edges area2
  norm_num

example : ∃ q, PolyOwns penta q ∧ (DDAPolygon id 0 penta).length = 115 :=
  ⟨⟨7 + 1, 6⟩, ((c83_exact 0 (by decide) penta_convex (by decide)).2 7 6).mp (by decide +kernel), by decide +kernel⟩

/-- The vertices must turn strictly: with three vertices on a line rounding makes the code visit a pixel twice. -/
theorem c83_collinear_twice : (DDAPolygon (rne 53) 0 [⟨36, 0⟩, ⟨27, 7⟩, ⟨0, 28⟩, ⟨36, 28⟩]).count (8, 21) = 2 := by decide +kernel

/-! ### C84 -/

/-- All vertices in `[0, w] x [0, h]`. -/
def PolyIn (w h : Nat) (ps : List Pt) : Prop := ∀ v ∈ ps, 0 ≤ v.x ∧ v.x ≤ w ∧ 0 ≤ v.y ∧ v.y ≤ h

/-- The sums of a polygon. -/
theorem poly_sums {fl : ℚ → ℚ} (R : Rnd 53 fl) (z : ℚ) {I : Img} (hI : I.OK) (hw : I.w ≤ 32768) (hh : I.h ≤ 32768) {bs : Nat} (hb : 1 ≤ bs)
    (hb' : bs ≤ 16) {ps : List Pt} (hp : PolyIn I.w I.h ps) :
    (DDAPolygonBlocks fl z ps bs).foldlM (sumStep fl I bs) ⟨0, 0, 0, 0, 0⟩ =
      some ((Sums.mk 0 0 0 0 0).plus ((fan ps).map (rowsWidth fl)).sum (total ((DDAPolygon fl z ps).map (pixelOf fl I)))) := by
  have hm : Monotone fl := fun a b => R.mono a b
  rw [foldlM_sums R hI hb']
  · congr 2
    · unfold DDAPolygonBlocks
      induction fan ps with
      | nil => rfl
      | cons t l ih =>
        rw [List.flatMap_cons, widths_append, blocks_width hm z hb, List.map_cons, List.sum_cons, ih]
    · exact total_perm ((c83_blocks hm z ps hb).map _)
  · intro e he
    obtain ⟨t, ht, he⟩ := List.mem_flatMap.mp he
    exact valid_of R z hw hh hb (poly_box hp t ht).box e he

/-- **C84**, block sizes: the value of a polygon does not depend on the block size, with any rounding. -/
theorem c84_block_size {fl : ℚ → ℚ} (R : Rnd 53 fl) (z : ℚ) {I : Img} (hI : I.OK) (hw : I.w ≤ 32768) (hh : I.h ≤ 32768) {bs bs' : Nat} (hb : 1 ≤ bs)
    (hb' : bs ≤ 16) (k : 1 ≤ bs') (k' : bs' ≤ 16) {ps : List Pt} (hp : PolyIn I.w I.h ps) :
    polyValue fl z I bs ps = polyValue fl z I bs' ps := by
  have h1 := poly_sums R z hI hw hh hb hb' hp
  have h2 := poly_sums R z hI hw hh k k' hp
  unfold DDAPolygonBlocks at h1 h2
  unfold polyValue
  rw [h1, h2]

example : polyValue (rne 53) 0 (ofBytes (rne 53) 14 12 fun x y => if x < y then (7, 7, 7) else (9, 200, 0)) 3 penta =
    polyValue (rne 53) 0 (ofBytes (rne 53) 14 12 fun x y => if x < y then (7, 7, 7) else (9, 200, 0)) 5 penta :=
  c84_block_size (rne_rnd (by norm_num)) 0 (ofBytes_ok (rne_rnd (by norm_num)) 14 12 _) (by simp [ofBytes]) (by simp [ofBytes]) (by norm_num) (by norm_num)
    (by norm_num) (by norm_num) (by unfold PolyIn ofBytes; decide)

/-- In exact arithmetic the count is the number of pixels, for triangles of any shape. -/
theorem rowsWidth_exact (z : ℚ) {w h : Nat} (hw : w ≤ 32768) (hh : h ≤ 32768) {t : Tri} (ht : InImage w h t) :
    rowsWidth id t = (DDATriangle id z t).length := by
  by_cases hd : iori t.a t.b t.c = 0
  · have hv : DDATriangle id z t = [] := by
      rw [List.eq_nil_iff_forall_not_mem]
      rintro ⟨x, y⟩ hq
      have hn : ¬ NonDegenerate t := fun h => (iori_nondeg t).mp h hd
      exact not_owns_degenerate hn _ ((c27_pixels z t (fun v hv => ⟨(ht v hv).1, (ht v hv).2.2.1⟩) x y).1.mp hq)
    rw [hv]
    simp only [List.length_nil, Nat.cast_zero]
    have hs : iori (sortY t).2.2 (sortY t).2.1 (sortY t).1 = 0 := by
      by_contra hne
      have hp := sortY_perm t
      generalize sortY t = s at *
      obtain ⟨p0, p1, p2⟩ := s
      simp only at *
      apply hne
      unfold iori at hd ⊢
      rcases perm_three hp with ⟨h1, h2, h3⟩ | ⟨h1, h2, h3⟩ | ⟨h1, h2, h3⟩ | ⟨h1, h2, h3⟩ | ⟨h1, h2, h3⟩ | ⟨h1, h2, h3⟩ <;>
        rw [h1, h2, h3] <;> linarith
    obtain ⟨s1, s2⟩ := sortY_sorted t
    unfold rowsWidth
    generalize sortY t = s at *
    obtain ⟨p0, p1, p2⟩ := s
    simp only at *
    have sl : p2.y < p1.y → slope id p2 p1 = slope id p2 p0 := by
      intro h
      have d := slope_diff (p := p2) (q := p1) (r := p0) h (by omega)
      rw [hs] at d
      unfold slope
      simp only [id]
      simp at d ⊢
      linarith
    have z1 : ∀ r, p2.y < p1.y → trunc ((upEdges id p0 p1 p2).2 r) - trunc ((upEdges id p0 p1 p2).1 r) = 0 := by
      intro r h
      unfold upEdges
      rw [sl h, if_neg (lt_irrefl _)]
      simp only [edgeAt, sl h, sub_self]
    have z2 : ∀ r, p1.y ≤ r → r < p0.y → trunc ((downEdges id p0 p1 p2).2 r) - trunc ((downEdges id p0 p1 p2).1 r) = 0 := by
      intro r h1 h2
      unfold downEdges
      by_cases h12 : p1.y = p2.y
      · have : iori p2 p1 p0 = (p1.x - p2.x) * (p0.y - p2.y) := by unfold iori; rw [h12]; ring
        rw [this] at hs
        have hx : p1.x = p2.x := by
          rcases mul_eq_zero.mp hs with h | h <;> omega
        have : p1 = p2 := by cases p1; cases p2; simp_all
        rw [this]
        simp
      · have e := exact_diff (p := p1) (q := p2) (r := p0) (by omega) (by omega) r
        rw [hs] at e
        have e : exact p1 p0 r = exact p2 p0 r := by simp at e; linarith
        rw [if_neg h12, sl (by omega), if_neg (lt_irrefl _)]
        simp only
        rw [edgeAt_id (by omega), edgeAt_id (by omega), e, sub_self]
    rw [Finset.sum_eq_zero, Finset.sum_eq_zero]
    · rfl
    · intro r hr
      rw [Finset.mem_Ico] at hr
      exact z2 r hr.1 hr.2
    · intro r hr
      rw [Finset.mem_Ico] at hr
      exact z1 r (by omega)
  · exact rowsWidth_length (id_rnd 53) z hw hh ht.box hd

theorem sum_lengths {fl : ℚ → ℚ} {z : ℚ} {L : List Tri} (h : ∀ t ∈ L, rowsWidth fl t = (DDATriangle fl z t).length) :
    (L.map (rowsWidth fl)).sum = ((L.flatMap (DDATriangle fl z)).length : Int) := by
  induction L with
  | nil => rfl
  | cons t L ih =>
    rw [List.map_cons, List.sum_cons, h t (by simp), ih fun t ht => h t (by simp [ht]), List.flatMap_cons, List.length_append]
    push_cast
    ring

/-- The colours a polygon covers. -/
def polyCols (fl : ℚ → ℚ) (z : ℚ) (f : Nat → Nat → Fin 256 × Fin 256 × Fin 256) (ps : List Pt) : List (ℚ × ℚ × ℚ) :=
  (DDAPolygon fl z ps).map (byteCol f)

theorem poly_upto {fl : ℚ → ℚ} (R : Rnd 53 fl) (z : ℚ) {I : Img} (hI : I.OK) (hw : I.w ≤ 32768) (hh : I.h ≤ 32768) {ps : List Pt}
    (hp : PolyIn I.w I.h ps) : ∀ p ∈ (DDAPolygon fl z ps).map (pixelOf fl I), p.Upto 1 := by
  intro p hq
  rw [List.mem_map] at hq
  obtain ⟨q, hq, rfl⟩ := hq
  have := (c83_bounds R z hw hh hp (bs := 1) (by norm_num)).2 q hq
  unfold IsPixel at this
  exact rawPixel_upto R (hI _ _ (by omega) (by omega))

/-- The value of a polygon whose counts are right, from its pixels. -/
theorem poly_value {fl : ℚ → ℚ} (R : Rnd 53 fl) (z : ℚ) {I : Img} (hI : I.OK) (hw : I.w ≤ 32768) (hh : I.h ≤ 32768) {bs : Nat} (hb : 1 ≤ bs)
    (hb' : bs ≤ 16) {ps : List Pt} (hp : PolyIn I.w I.h ps) (hn : ∀ t ∈ fan ps, rowsWidth fl t = (DDATriangle fl z t).length) :
    polyValue fl z I bs ps = some (sumsDiff fl (sumsOf ((DDAPolygon fl z ps).map (pixelOf fl I)))) := by
  have h1 := poly_sums R z hI hw hh hb hb' hp
  unfold DDAPolygonBlocks at h1
  unfold polyValue
  rw [h1, sum_lengths hn, Option.map_some]
  unfold Sums.plus total sumsOf
  rw [← DDAPolygon]
  simp

/-- **C84**, exact arithmetic: the value of a polygon is the squared error of the mean colour of the pixels it covers (a pixel covered twice
counts twice), the least over all colours.  The vertices may be in any position. -/
theorem c84_exact (z : ℚ) {w h : Nat} (hw : w ≤ 32768) (hh : h ≤ 32768) (f : Nat → Nat → Fin 256 × Fin 256 × Fin 256)
    {ps : List Pt} (hp : PolyIn w h ps) {bs : Nat} (hb : 1 ≤ bs) (hb' : bs ≤ 16) (hsize : (DDAPolygon id z ps).length ≤ 6876000) :
    ∃ v, polyValue id z (ofBytes id w h f) bs ps = some v ∧ 0 ≤ v ∧ v = sqErr (polyCols id z f ps) (mean (polyCols id z f ps)) ∧
      ∀ c, v ≤ sqErr (polyCols id z f ps) c := by
  have R := id_rnd 53
  have hI := ofBytes_ok R w h f
  rw [poly_value R z hI hw hh hb hb' hp fun t ht => rowsWidth_exact z hw hh (poly_box hp t ht)]
  set L := (DDAPolygon id z ps).map (pixelOf id (ofBytes id w h f)) with hL
  have hl : L.length ≤ 6876000 := by rw [hL]; simpa using hsize
  have hcols : L.map col = polyCols id z f ps := by
    rw [hL, List.map_map]
    exact List.map_congr_left fun q _ => col_pixelOf chan_id w h f q
  have key : sumsDiff id (sumsOf L) = sqErr (polyCols id z f ps) (mean (polyCols id z f ps)) := by
    rw [← hcols]
    by_cases he : L = []
    · rw [he]; simp [sumsOf, sumsDiff, sqErr]
    · refine (c32_value he ?_ (sumsOf_ov (poly_upto R z hI hw hh hp) hl)).1
      intro p hp
      rw [hL, List.mem_map] at hp
      obtain ⟨q, -, rfl⟩ := hp
      exact pixelOf_id w h f q
  refine ⟨_, rfl, key ▸ sqErr_nonneg _ _, key, fun c => ?_⟩
  rw [key]
  by_cases he : polyCols id z f ps = []
  · rw [he]; simp [sqErr]
  · exact c32_mean_least he c

/-- **C84**, IEEE arithmetic: for a polygon without three vertices of a fan triangle on a line the value is at most the least squared error
plus 1/1000, and at least the least squared error minus the number of pixels and 1/1000. -/
theorem c84_ieee_partial (z : ℚ) {w h : Nat} (hw : w ≤ 32768) (hh : h ≤ 32768) (f : Nat → Nat → Fin 256 × Fin 256 × Fin 256)
    {ps : List Pt} (hp : PolyIn w h ps) (hn : ∀ t ∈ fan ps, NonDegenerate t) {bs : Nat} (hb : 1 ≤ bs) (hb' : bs ≤ 16)
    (hsize : (DDAPolygon (rne 53) z ps).length ≤ 6876000) :
    ∃ v, polyValue (rne 53) z (ofBytes (rne 53) w h f) bs ps = some v ∧
      (∀ c, v ≤ sqErr (polyCols (rne 53) z f ps) c + 1 / 1000) ∧
      sqErr (polyCols (rne 53) z f ps) (mean (polyCols (rne 53) z f ps)) - (polyCols (rne 53) z f ps).length - 1 / 1000 ≤ v := by
  have R : Rnd 53 (rne 53) := rne_rnd (by norm_num)
  have hI := ofBytes_ok R w h f
  rw [poly_value R z hI hw hh hb hb' hp fun t ht => rowsWidth_length R z hw hh (poly_box hp t ht).box ((iori_nondeg t).mp (hn t ht))]
  have hu := poly_upto R z hI hw hh hp
  obtain ⟨b1, b2⟩ := sq_bounds R w h f (DDAPolygon (rne 53) z ps)
  set L := (DDAPolygon (rne 53) z ps).map (pixelOf (rne 53) (ofBytes (rne 53) w h f)) with hL
  have hl : L.length ≤ 6876000 := by rw [hL]; simpa using hsize
  have hcols : L.map col = polyCols (rne 53) z f ps := by
    rw [hL, List.map_map]
    exact List.map_congr_left fun q _ => col_pixelOf chan_bytes w h f q
  have r := abs_le.mp (sumsDiff_round R hu hl)
  refine ⟨_, rfl, ?_⟩
  rw [← polyCols] at b1 b2
  have len : (DDAPolygon (rne 53) z ps).length = (polyCols (rne 53) z f ps).length := by unfold polyCols; simp
  rw [len] at b1
  by_cases he : L = []
  · have e0 : polyCols (rne 53) z f ps = [] := by rw [← hcols, he]; rfl
    rw [he, e0]
    simp [sumsOf, sumsDiff, sqErr]
  · have k := sumsDiff_id he (sumsOf_ov hu hl)
    rw [hcols] at k
    have hne : polyCols (rne 53) z f ps ≠ [] := by rw [← hcols]; simpa using he
    constructor
    · intro c
      have := c32_mean_least hne c
      linarith [r.1, r.2]
    · linarith [r.1, r.2]

example : ∃ v, polyValue (rne 53) 0 (ofBytes (rne 53) 14 12 fun x y => if x < y then (7, 7, 7) else (9, 200, 0)) 3 penta = some v :=
  let ⟨v, h, _⟩ := c84_ieee_partial 0 (w := 14) (h := 12) (by norm_num) (by norm_num) (fun x y => if x < y then (7, 7, 7) else (9, 200, 0)) (ps := penta)
    (by unfold PolyIn; decide) (by unfold NonDegenerate area2 loc; decide +kernel) (bs := 3) (by norm_num) (by norm_num) (by decide +kernel)
  ⟨v, h⟩

/-- The least squared error of a polygon. -/
def polyErr (z : ℚ) (f : Nat → Nat → Fin 256 × Fin 256 × Fin 256) (p : List (ℚ × ℚ)) : ℚ :=
  sqErr (polyCols id z f (roundPoly id p)) (mean (polyCols id z f (roundPoly id p)))

/-- **C84**, fitness in exact arithmetic: one minus the sum of the least squared errors of the polygons over the greatest error an image of
this size can have.  It is at most 1, and at least 3/4 if no pixel is in two polygons. -/
theorem c84_fitness (z : ℚ) {w h : Nat} (hw1 : 1 ≤ w) (hh1 : 1 ≤ h) (hw : w ≤ 32768) (hh : h ≤ 32768)
    (f : Nat → Nat → Fin 256 × Fin 256 × Fin 256) {P : List (List (ℚ × ℚ))} (hp : ∀ p ∈ P, PolyIn w h (roundPoly id p)) {bs : Nat} (hb : 1 ≤ bs)
    (hb' : bs ≤ 16) (hsize : ∀ p ∈ P, (DDAPolygon id z (roundPoly id p)).length ≤ 6876000) :
    ∃ v, evalPolys id z (ofBytes id w h f) bs P = some v ∧ v = 1 - (P.map (polyErr z f)).sum / (195075 * w * h) ∧ v ≤ 1 ∧
      ((P.flatMap fun p => DDAPolygon id z (roundPoly id p)).Nodup → 3 / 4 ≤ v) := by
  have fold : ∀ (Q : List (List (ℚ × ℚ))) (s : ℚ), (∀ p ∈ Q, p ∈ P) →
      Q.foldlM (fun s p => (polyValue id z (ofBytes id w h f) bs (roundPoly id p)).map fun v => id (s + v)) s =
        some (s + (Q.map (polyErr z f)).sum) := by
    intro Q
    induction Q with
    | nil => intro s _; simp
    | cons q Q ih =>
      intro s hQ
      have hq := hQ q (by simp)
      obtain ⟨v, e, -, e', -⟩ := c84_exact z hw hh f (hp q hq) hb hb' (hsize q hq)
      rw [List.foldlM_cons, e, Option.map_some]
      change Q.foldlM _ (id (s + v)) = _
      rw [ih _ fun p hp => hQ p (by simp [hp]), List.map_cons, List.sum_cons, e']
      simp only [id, polyErr]
      rw [add_assoc]
  have hw0 : (0 : ℚ) < w := by exact_mod_cast hw1
  have hh0 : (0 : ℚ) < h := by exact_mod_cast hh1
  have hD : (0 : ℚ) < 195075 * w * h := by positivity
  have hnn : 0 ≤ (P.map (polyErr z f)).sum := List.sum_nonneg fun x hx => by
    obtain ⟨p, -, rfl⟩ := List.mem_map.mp hx
    exact sqErr_nonneg _ _
  refine ⟨_, ?_, rfl, by linarith [div_nonneg hnn hD.le], ?_⟩
  · unfold evalPolys
    rw [fold P 0 fun _ h => h]
    change some _ = some _
    congr 1
    unfold polyFinish maxPixelDifference
    simp only [id, ofBytes, zero_add]
    push_cast
    norm_num
  · intro hnd
    have each : ∀ Q : List (List (ℚ × ℚ)), (Q.map (polyErr z f)).sum ≤
        195075 / 4 * ((Q.flatMap fun p => DDAPolygon id z (roundPoly id p)).length : ℚ) := by
      intro Q
      induction Q with
      | nil => simp
      | cons q Q ih =>
        rw [List.map_cons, List.sum_cons, List.flatMap_cons, List.length_append]
        have h1 : polyErr z f q ≤ 195075 / 4 * ((DDAPolygon id z (roundPoly id q)).length : ℚ) := by
          refine le_trans ?_ (sqErr_mid f _)
          by_cases he : polyCols id z f (roundPoly id q) = []
          · unfold polyErr; rw [he]; exact sqErr_nonneg _ _
          · exact c32_mean_least he _
        push_cast
        linarith
    have hlen : (P.flatMap fun p => DDAPolygon id z (roundPoly id p)).length ≤ w * h := by
      have hsub : (P.flatMap fun p => DDAPolygon id z (roundPoly id p)).toFinset ⊆ Finset.Ico (0 : Int) w ×ˢ Finset.Ico (0 : Int) h := by
        rintro ⟨x, y⟩ hq
        rw [List.mem_toFinset, List.mem_flatMap] at hq
        obtain ⟨p, hpP, hq⟩ := hq
        have := (c83_bounds (id_rnd 53) z hw hh (hp p hpP) (bs := 1) (by norm_num)).2 _ hq
        unfold IsPixel at this
        simp only [Finset.mem_product, Finset.mem_Ico]
        omega
      have := Finset.card_le_card hsub
      rw [List.toFinset_card_of_nodup hnd, Finset.card_product, Int.card_Ico, Int.card_Ico] at this
      simpa using this
    have hlen' : ((P.flatMap fun p => DDAPolygon id z (roundPoly id p)).length : ℚ) ≤ w * h := by exact_mod_cast hlen
    have : (P.map (polyErr z f)).sum / (195075 * w * h) ≤ 1 / 4 := by
      rw [div_le_iff₀ hD]
      linarith [each P]
    linarith

/-- A diagram without polygons has the greatest fitness, whatever the image: pixels no polygon covers cost nothing. -/
theorem c84_empty (z : ℚ) {fl : ℚ → ℚ} (R : Rnd 53 fl) (I : Img) (bs : Nat) : evalPolys fl z I bs [] = some 1 := by
  have one : fl 1 = 1 := by have := R.int (n := 1) (by norm_num); simpa using this
  unfold evalPolys polyFinish
  simp [R.zero, one]

/-- The fitness of polygons with collinear vertices can exceed 1 in IEEE arithmetic: a fan triangle without area takes one pixel off the count. -/
theorem c84_collinear_false : ∃ v, evalPolys (rne 53) 0 (grey (rne 53) 255 62 43) 1 [[(61, 0), (43, 14), (7, 42), (7, 41)]] = some v ∧ 1 < v := by
  have key : ((evalPolys (rne 53) 0 (grey (rne 53) 255 62 43) 1 [[(61, 0), (43, 14), (7, 42), (7, 41)]]).map fun v => decide (1 < v)) = some true := by
    decide +kernel
  rw [Option.map_eq_some_iff] at key
  obtain ⟨v, h3, h4⟩ := key
  exact ⟨v, h3, of_decide_eq_true h4⟩

/-- The conditions hold for the pentagon. -/
example : PolyIn 14 12 (roundPoly id [(5, 0), (14, 3), (12, 11), (4, 12), (1 / 4, 6)]) ∧ roundPoly id [(5, 0), (14, 3), (12, 11), (4, 12), (1 / 4, 6)] = penta ∧
    (∀ t ∈ fan penta, NonDegenerate t) ∧ (DDAPolygon id 0 penta).Nodup ∧ (DDAPolygon (rne 53) 0 penta).length ≤ 6876000 := by
  have e : roundPoly id [(5, 0), (14, 3), (12, 11), (4, 12), (1 / 4, 6)] = penta := by decide +kernel
  rw [e]
  refine ⟨by unfold PolyIn; decide, rfl, ?_, by decide +kernel, by decide +kernel⟩
  intro t ht
  rw [iori_nondeg]
  revert t
  decide

/-- The value of the pentagon on a checkerboard, with blocks of 3. -/
example : polyValue id 0 (checker id 14 12) 3 penta = some (sqErr (polyCols id 0 (fun x y => if (x + y) % 2 = 0 then (0, 0, 0) else (255, 255, 255)) penta)
    (mean (polyCols id 0 (fun x y => if (x + y) % 2 = 0 then (0, 0, 0) else (255, 255, 255)) penta))) := by
  obtain ⟨v, e, -, e', -⟩ := c84_exact 0 (w := 14) (h := 12) (by norm_num) (by norm_num) (fun x y => if (x + y) % 2 = 0 then (0, 0, 0) else (255, 255, 255))
    (ps := penta) (by unfold PolyIn; decide) (bs := 3) (by norm_num) (by norm_num) (by decide +kernel)
  rw [← e']
  exact e

end Verif.Props

import Verif.Props.Polygon
import Verif.Props.Picture

/-!
# The fitness of polygons is that of the rendered picture (C92)

The counterpart of C87 for `fitness/polygons.go` and `render/polygons.go`.  Unlike triangles, polygons are not charged for the part of the image they leave
out: the fitness is one minus the squared error over the painted pixels.
-/

namespace Verif.Props

open Verif.Tri Verif.Spec Verif.Float Verif.Raster Verif.Fit Verif.Small Verif.Alg
open Verif.Incr hiding trunc step run Entry

section
variable {w h : Nat} {P : List (List (ℚ × ℚ))}

/-- The fitness from the values of the polygons. -/
theorem evalPolys_eq {fl : ℚ → ℚ} {z : ℚ} {I : Img} {bs : Nat} {V : List Pt → ℚ}
    (hV : ∀ ps ∈ P.map (roundPoly fl), polyValue fl z I bs ps = some (V ps)) :
    evalPolys fl z I bs P = some (polyFinish fl I (((P.map (roundPoly fl)).map V).foldl (fun s x => fl (s + x)) 0)) := by
  have fold : ∀ (Q : List (List (ℚ × ℚ))) (s : ℚ), (∀ p ∈ Q, p ∈ P) →
      Q.foldlM (fun s p => (polyValue fl z I bs (roundPoly fl p)).map fun v => fl (s + v)) s =
        some (((Q.map (roundPoly fl)).map V).foldl (fun s x => fl (s + x)) s) := by
    intro Q
    induction Q with
    | nil => intro s _; rfl
    | cons q Q ih =>
      intro s hQ
      rw [List.foldlM_cons, hV _ (List.mem_map_of_mem (hQ q (by simp))), Option.map_some]
      change Q.foldlM _ (fl (s + V (roundPoly fl q))) = _
      rw [ih _ fun p hp => hQ p (by simp [hp])]
      rfl
  unfold evalPolys
  rw [fold P 0 fun _ h => h]
  rfl

/-- The polygon covers the pixels whose lattice point a triangle of its fan owns. -/
def FanOwns (ps : List Pt) (q : Int × Int) : Prop := ∃ t ∈ fan ps, OwnsPixel t q

theorem fanOwns_iff (z : ℚ) (ps : List Pt) {q : Int × Int} (hq : IsPixel w h q) : FanOwns ps q ↔ q ∈ DDAPolygon id z ps := by
  obtain ⟨x, y⟩ := q
  unfold FanOwns DDAPolygon
  rw [List.mem_flatMap]
  refine exists_congr fun t => and_congr_right fun _ => ?_
  unfold OwnsPixel
  have := c27_pixels_right z t (x := x) hq.1 y
  exact_mod_cast this.symm

theorem flat_once {α β : Type} [BEq β] [LawfulBEq β] {px : α → List β} : ∀ {Q : List α}, (Q.flatMap px).Nodup → ∀ q, (Q.map fun e => (px e).count q).sum ≤ 1 := by
  intro Q hn q
  have := List.nodup_iff_count_le_one.mp hn q
  rw [List.count_flatMap] at this
  exact this

theorem flat_part {α β : Type} {px : α → List β} {Q : List α} (hn : (Q.flatMap px).Nodup) {ps : α} (hps : ps ∈ Q) : (px ps).Nodup :=
  (List.nodup_flatMap.mp hn).1 ps hps

/-- The error of a picture of polygons, summed by polygons. -/
theorem picture_polys (z : ℚ) {fl : ℚ → ℚ} (R : Rnd 53 fl) (hw : w ≤ 32768) (hh : h ≤ 32768) {Q : List (List Pt)} (hQ : ∀ ps ∈ Q, PolyIn w h ps)
    (hn : (Q.flatMap (DDAPolygon fl z)).Nodup) {I : Img} (hIw : I.w = w) (hIh : I.h = h)
    {cov : List Pt → Int × Int → Prop} (hcov : ∀ ps ∈ Q, ∀ q, IsPixel w h q → (cov ps q ↔ q ∈ DDAPolygon fl z ps)) {cs : List RGB} (hl : cs.length = Q.length) :
    pictureErr I cov (Q.zip cs) =
      ((Q.zip cs).map fun e => ((DDAPolygon fl z e.1).map fun q => rgbDist (I.px q.1.toNat q.2.toNat) e.2).sum).sum := by
  have mem : ∀ e ∈ Q.zip cs, e.1 ∈ Q := fun e he => (List.of_mem_zip he).1
  refine picture_shapes (px := DDAPolygon fl z) ?_ ?_ ?_
  · intro e he q hq
    rw [hIw, hIh] at hq
    exact hcov e.1 (mem e he) q hq
  · intro e he
    refine ⟨flat_part hn (mem e he), ?_⟩
    rw [hIw, hIh]
    exact (c83_bounds R z hw hh (hQ e.1 (mem e he)) (bs := 1) le_rfl).2
  · intro q
    have e : ((Q.zip cs).map fun e => (DDAPolygon fl z e.1).count q) = Q.map fun t => (DDAPolygon fl z t).count q := by
      have : (Q.zip cs).map Prod.fst = Q := List.map_fst_zip (by omega)
      conv_rhs => rw [← this]
      rw [List.map_map]
      rfl
    rw [e]
    exact flat_once hn q

/-- The colour the renderer gives to a polygon. -/
def polyPaint (fl : ℚ → ℚ) (z : ℚ) (I : Img) (ps : List Pt) : RGB := ((entry fl I (DDAPolygon fl z ps) ps).2).getD ⟨0, 0, 0⟩

theorem polys_out {fl : ℚ → ℚ} (R : Rnd 53 fl) (z : ℚ) {I : Img} (hw1 : 1 ≤ I.w) (hh1 : 1 ≤ I.h) (hw : I.w ≤ 32768) (hh : I.h ≤ 32768) {Q : List (List Pt)}
    (hQ : ∀ ps ∈ Q, PolyIn I.w I.h ps) (hc : ∀ ps ∈ Q, (entry fl I (DDAPolygon fl z ps) ps).2 = some (polyPaint fl z I ps)) :
    ∃ out, polygonsOnImage fl z I Q = some out ∧ out.map Prod.snd = (Q.map (polyPaint fl z I)).map some := by
  obtain ⟨out, e, hl, ho⟩ := c54_polygons R z hw1 hh1 hw hh hQ
  refine ⟨out, e, ?_⟩
  refine List.ext_getElem? fun i => ?_
  rw [List.getElem?_map, List.getElem?_map, List.getElem?_map]
  cases hi : Q[i]? with
  | none =>
    rw [List.getElem?_eq_none_iff] at hi
    rw [List.getElem?_eq_none_iff.mpr (by omega)]
    rfl
  | some ps =>
    rw [(ho i ps hi).1]
    simp only [Option.map_some, Option.some_inj]
    exact hc ps (List.mem_of_getElem? hi)

theorem polyFinish_id {I : Img} (hw1 : 1 ≤ I.w) (hh1 : 1 ≤ I.h) (E : ℚ) : polyFinish id I (65025 * E) = 1 - E / (3 * (I.w * I.h)) := by
  have h3 : (I.w : ℚ) ≠ 0 := by positivity
  have h4 : (I.h : ℚ) ≠ 0 := by positivity
  unfold polyFinish maxPixelDifference
  simp only [id_eq]
  push_cast
  field_simp
  ring

theorem polys_size {fl : ℚ → ℚ} (R : Rnd 53 fl) (z : ℚ) (hw : w ≤ 32768) (hh : h ≤ 32768) {Q : List (List Pt)} (hQ : ∀ ps ∈ Q, PolyIn w h ps)
    (hn : (Q.flatMap (DDAPolygon fl z)).Nodup) : (Q.map fun ps => (DDAPolygon fl z ps).length).sum ≤ w * h := by
  rw [← List.length_flatMap]
  refine count_le_one hn ?_
  intro q hq
  obtain ⟨ps, hps, hq⟩ := List.mem_flatMap.mp hq
  exact (c83_bounds R z hw hh (hQ ps hps) (bs := 1) le_rfl).2 q hq

/-- **C92** in exact arithmetic: for polygons no two of which share a pixel, on an 8-bit image of at most 6876000 pixels, the fitness is one minus the squared
error, per channel and pixel of the image, of the picture that `PolygonsOnImage` describes for the rounded polygons; no other colours give a larger value; and
the fitness is 1 exactly if every painted pixel has the colour of the image. -/
theorem c92_exact (z : ℚ) (f : Nat → Nat → Fin 256 × Fin 256 × Fin 256) {bs : Nat} (hb : 1 ≤ bs) (hb' : bs ≤ 16)
    (hw1 : 1 ≤ w) (hh1 : 1 ≤ h) (hw : w ≤ 32768) (hh : h ≤ 32768) (hwh : w * h ≤ 6876000) {Q : List (List Pt)} (hPQ : P.map (roundPoly id) = Q)
    (hQ : ∀ ps ∈ Q, PolyIn w h ps) (hne : ∀ ps ∈ Q, ps ≠ []) (hn : (Q.flatMap (DDAPolygon id z)).Nodup) :
    ∃ out cs v, polygonsOnImage id z (ofBytes id w h f) Q = some out ∧ out.map Prod.snd = cs.map some ∧
      evalPolys id z (ofBytes id w h f) bs P = some v ∧
      v = 1 - pictureErr (ofBytes id w h f) FanOwns (Q.zip cs) / (3 * (w * h)) ∧
      (∀ cs' : List RGB, cs'.length = Q.length → 1 - pictureErr (ofBytes id w h f) FanOwns (Q.zip cs') / (3 * (w * h)) ≤ v) ∧
      (v = 1 ↔ ∀ x y : Nat, x < w → y < h → ∀ c, shade FanOwns (Q.zip cs) (x, y) = some c → c = (ofBytes id w h f).px x y) := by
  have R := id_rnd 53
  set I := ofBytes id w h f with hI
  have hsz := polys_size R z hw hh hQ hn
  have hP : (0 : ℚ) < w * h := by
    have : (1 : ℚ) ≤ w := by exact_mod_cast hw1
    have : (1 : ℚ) ≤ h := by exact_mod_cast hh1
    positivity
  -- the colours
  have hcol : ∀ ps ∈ Q, (entry id I (DDAPolygon id z ps) ps).2 = some (polyPaint id z I ps) ∧
      ∀ ch ∈ channels, ch (polyPaint id z I ps) = avgOf ((palette I (DDAPolygon id z ps) ps).map ch) := by
    intro ps hps
    obtain ⟨c, h1, h2⟩ := c54_colour (I := I) (qs := DDAPolygon id z ps) (hne ps hps)
    have : polyPaint id z I ps = c := by unfold polyPaint; rw [h1]; rfl
    rw [this]
    exact ⟨h1, h2⟩
  obtain ⟨out, eo, ho⟩ := polys_out R z (I := I) hw1 hh1 hw hh hQ fun ps hps => (hcol ps hps).1
  -- the value of a polygon
  let E : List Pt → RGB → ℚ := fun ps c => ((DDAPolygon id z ps).map fun q => rgbDist (I.px q.1.toNat q.2.toNat) c).sum
  have hval : ∀ ps ∈ Q, polyValue id z I bs ps = some (65025 * E ps (polyPaint id z I ps)) ∧ ∀ c, E ps (polyPaint id z I ps) ≤ E ps c := by
    intro ps hps
    have one := List.single_le_sum (l := Q.map fun ps => (DDAPolygon id z ps).length) (fun _ _ => Nat.zero_le _) _ (List.mem_map_of_mem hps)
    obtain ⟨v, hv, -, he, hle⟩ := c84_exact z hw hh f (hQ ps hps) hb hb' (by omega)
    have key : v = 65025 * E ps (polyPaint id z I ps) := by
      simp only [E]
      rw [err_id, he]
      by_cases hne' : DDAPolygon id z ps = []
      · unfold polyCols; rw [hne']; rfl
      · rw [avg_mean (w := w) (h := h) f (qs := DDAPolygon id z ps)]
        · rfl
        · intro ch hch
          have := (hcol ps hps).2 ch hch
          unfold palette at this
          rwa [if_neg hne'] at this
    refine ⟨by rw [hv, key], fun c => ?_⟩
    have := hle (255 * c.r, 255 * c.g, 255 * c.b)
    unfold polyCols at this
    rw [← err_id (w := w) (h := h), key] at this
    change 65025 * _ ≤ 65025 * E ps c at this
    linarith
  have hpic : ∀ cs : List RGB, cs.length = Q.length → pictureErr I FanOwns (Q.zip cs) = ((Q.zip cs).map fun e => E e.1 e.2).sum :=
    fun cs hl => picture_polys z R hw hh hQ hn rfl rfl (fun ps _ q hq => fanOwns_iff z ps hq) hl
  have hpc : pictureErr I FanOwns (Q.zip (Q.map (polyPaint id z I))) = (Q.map fun ps => E ps (polyPaint id z I ps)).sum := by
    rw [hpic _ (by simp), zip_self, List.map_map]; rfl
  have hv : evalPolys id z I bs P = some (1 - pictureErr I FanOwns (Q.zip (Q.map (polyPaint id z I))) / (3 * (w * h))) := by
    rw [evalPolys_eq (V := fun ps => 65025 * E ps (polyPaint id z I ps)) (by rw [hPQ]; exact fun ps hps => (hval ps hps).1), hPQ]
    have : (Q.map fun ps => 65025 * E ps (polyPaint id z I ps)).foldl (fun s x => id (s + x)) 0 = 65025 * pictureErr I FanOwns (Q.zip (Q.map (polyPaint id z I))) := by
      have k := foldl_id (Q.map fun ps => 65025 * E ps (polyPaint id z I ps)) 0
      rw [zero_add] at k
      rw [hpc, ← List.sum_map_mul_left]
      exact k
    rw [this, polyFinish_id hw1 hh1]
    rfl
  refine ⟨out, _, _, eo, ho, hv, rfl, ?_, ?_⟩
  · intro cs' hl
    have : pictureErr I FanOwns (Q.zip (Q.map (polyPaint id z I))) ≤ pictureErr I FanOwns (Q.zip cs') := by
      rw [hpc, hpic _ hl]
      exact zip_le (E := E) hl fun ps hps c => (hval ps hps).2 c
    have := div_le_div_of_nonneg_right this (show (0 : ℚ) ≤ 3 * (w * h) by positivity)
    linarith
  · obtain ⟨p0, p1⟩ := pictureErr_zero (I := I) (cov := FanOwns) (L := Q.zip (Q.map (polyPaint id z I)))
    rw [sub_eq_self, div_eq_zero_iff, or_iff_left (by positivity), p1]
    rfl

/-- The fitness as a function of the total difference: rounding is negligible. -/
theorem polyFinish_close {fl : ℚ → ℚ} (R : Rnd 53 fl) {I : Img} (hw1 : 1 ≤ I.w) (hh1 : 1 ≤ I.h) (hwh : I.w * I.h ≤ 6800000)
    {D : ℚ} (hD : |D| ≤ 2 * (195075 * (I.w * I.h))) :
    |polyFinish fl I D - (1 - D / (195075 * (I.w * I.h)))| ≤ 1 / 2 ^ 40 := by
  have hwhI : ((I.w * I.h : ℕ) : ℤ) ≤ 6800000 := by exact_mod_cast hwh
  have h3 : (1 : ℚ) ≤ I.w := by exact_mod_cast hw1
  have h4 : (1 : ℚ) ≤ I.h := by exact_mod_cast hh1
  have e2 : fl ((maxPixelDifference * I.w * I.h : Int) : ℚ) = 195075 * (I.w * I.h) := by
    have : maxPixelDifference * I.w * I.h = 195075 * ((I.w * I.h : ℕ) : ℤ) := by unfold maxPixelDifference; push_cast; ring
    rw [this, R.int (by rw [abs_of_nonneg (by positivity)]; generalize ((I.w * I.h : ℕ) : ℤ) = k at *; norm_num at hwhI ⊢; linarith)]
    push_cast
    ring
  unfold polyFinish
  rw [e2]
  have hP : (0 : ℚ) < 195075 * (I.w * I.h) := by positivity
  have y1 : |D / (195075 * (I.w * I.h))| ≤ 2 := by rw [abs_div, abs_of_pos hP, div_le_iff₀ hP]; exact hD
  generalize D / (195075 * (I.w * I.h)) = y at *
  have q2 := R.err y
  have y2 : |y| / 2 ^ 53 ≤ 2 / 2 ^ 53 := div_le_div_of_nonneg_right y1 (by positivity)
  have q3 := R.err (1 - fl y)
  generalize fl y = u at *
  have b1 := abs_le.mp (q2.trans y2)
  have b3 := abs_le.mp y1
  have u1 : |1 - u| ≤ 6 := by
    norm_num at b1
    rw [abs_le]; constructor <;> linarith
  have u2 : |1 - u| / 2 ^ 53 ≤ 6 / 2 ^ 53 := div_le_div_of_nonneg_right u1 (by positivity)
  have b4 := abs_le.mp (q3.trans u2)
  norm_num at b1 b4 ⊢
  rw [abs_le]
  constructor <;> linarith

/-- Half grey is at most 3/4 away from any colour of the image. -/
theorem half_far {c : RGB} (hc : Unit01 c) : rgbDist c ⟨1 / 2, 1 / 2, 1 / 2⟩ ≤ 3 / 4 := by
  obtain ⟨⟨r0, r1⟩, ⟨g0, g1⟩, b0, b1⟩ := hc.all
  have k : ∀ x : ℚ, 0 ≤ x → x ≤ 1 → (x - 1 / 2) ^ 2 ≤ 1 / 4 := by
    intro x h0 h1
    nlinarith [mul_nonneg h0 (sub_nonneg.mpr h1)]
  have := k _ r0 r1
  have := k _ g0 g1
  have := k _ b0 b1
  unfold rgbDist
  simp only
  linarith

/-- **C92** with IEEE arithmetic (partial: no three vertices of a fan triangle on a line): for polygons no two of which share a pixel, on an 8-bit image of at
most 6800000 pixels, the fitness differs by at most 1/100000 from one minus the squared error, per channel and pixel of the image, of the picture that
`PolygonsOnImage` describes; no other colours would raise this by more than 1/100000 above the fitness; and the fitness is between 3/4 and 1, up to 1/100000. -/
theorem c92_ieee_partial (z : ℚ) (f : Nat → Nat → Fin 256 × Fin 256 × Fin 256) {bs : Nat} (hb : 1 ≤ bs) (hb' : bs ≤ 16)
    (hw1 : 1 ≤ w) (hh1 : 1 ≤ h) (hw : w ≤ 32768) (hh : h ≤ 32768) (hwh : w * h ≤ 6800000) {Q : List (List Pt)} (hPQ : P.map (roundPoly (rne 53)) = Q)
    (hQ : ∀ ps ∈ Q, PolyIn w h ps) (hne : ∀ ps ∈ Q, ps ≠ []) (hd : ∀ ps ∈ Q, ∀ t ∈ fan ps, NonDegenerate t)
    (hn : (Q.flatMap (DDAPolygon (rne 53) z)).Nodup) (hlen : Q.length ≤ 2 * (w * h)) :
    ∃ out cs v, polygonsOnImage (rne 53) z (ofBytes (rne 53) w h f) Q = some out ∧ out.map Prod.snd = cs.map some ∧
      evalPolys (rne 53) z (ofBytes (rne 53) w h f) bs P = some v ∧
      |v - (1 - pictureErr (ofBytes (rne 53) w h f) (fun ps q => q ∈ DDAPolygon (rne 53) z ps) (Q.zip cs) / (3 * (w * h)))| ≤ 1 / 100000 ∧
      (∀ cs' : List RGB, cs'.length = Q.length →
        1 - pictureErr (ofBytes (rne 53) w h f) (fun ps q => q ∈ DDAPolygon (rne 53) z ps) (Q.zip cs') / (3 * (w * h)) ≤ v + 1 / 100000) ∧
      3 / 4 - 1 / 100000 ≤ v ∧ v ≤ 1 + 1 / 100000 := by
  have R : Rnd 53 (rne 53) := rne_rnd (by norm_num)
  set I := ofBytes (rne 53) w h f with hI
  have hsz := polys_size R z hw hh hQ hn
  have hP : (0 : ℚ) < w * h := by
    have : (1 : ℚ) ≤ w := by exact_mod_cast hw1
    have : (1 : ℚ) ≤ h := by exact_mod_cast hh1
    positivity
  let E : List Pt → RGB → ℚ := fun ps c => ((DDAPolygon (rne 53) z ps).map fun q => rgbDist (I.px q.1.toNat q.2.toNat) c).sum
  let n : List Pt → ℕ := fun ps => (DDAPolygon (rne 53) z ps).length
  let V : List Pt → ℚ := fun ps => (polyValue (rne 53) z I bs ps).getD 0
  let c : List Pt → RGB := polyPaint (rne 53) z I
  have small : ∀ ps ∈ Q, (DDAPolygon (rne 53) z ps).length ≤ 6800000 := by
    intro ps hps
    have one := List.single_le_sum (l := Q.map fun ps => (DDAPolygon (rne 53) z ps).length) (fun _ _ => Nat.zero_le _) _ (List.mem_map_of_mem hps)
    omega
  have key : ∀ ps ∈ Q, (entry (rne 53) I (DDAPolygon (rne 53) z ps) ps).2 = some (c ps) ∧ polyValue (rne 53) z I bs ps = some (V ps) ∧
      V ps ≤ 65025 * E ps (c ps) + n ps / 2 ^ 30 + 1 / 1000 ∧ 65025 * E ps (c ps) - n ps * (1 + 1 / 2 ^ 20) - 1 / 1000 ≤ V ps ∧
      0 ≤ E ps (c ps) ∧ E ps (c ps) ≤ 4 * n ps ∧ ∀ c', E ps (c ps) ≤ E ps c' + n ps / 2 ^ 40 := by
    intro ps hps
    have hsm := small ps hps
    have hpix := (c83_bounds R z hw hh (hQ ps hps) (bs := 1) le_rfl).2
    obtain ⟨v, hv, hu, hl⟩ := c84_ieee_partial z hw hh f (hQ ps hps) (hd ps hps) hb hb' (by omega)
    have hVv : V ps = v := by simp only [V]; rw [hv]; rfl
    rw [← hVv] at hv hu hl
    by_cases hqs : DDAPolygon (rne 53) z ps = []
    · have hps0 : (entry (rne 53) I (DDAPolygon (rne 53) z ps) ps).2 ≠ none := by
        unfold entry Avg.average
        simp only
        rw [foldl_add]
        simp only [Avg.zero, zero_add]
        rw [if_neg (by
          have := List.length_pos_iff.mpr (palette_ne (I := I) (qs := DDAPolygon (rne 53) z ps) (hne ps hps))
          omega)]
        simp
      obtain ⟨c0, e0⟩ := Option.ne_none_iff_exists'.mp hps0
      have hc0 : c ps = c0 := by simp only [c]; unfold polyPaint; rw [e0]; rfl
      refine ⟨by rw [e0, hc0], hv, ?_⟩
      have := hu (0, 0, 0)
      unfold polyCols at this hl
      simp only [E, n]
      rw [hqs] at this hl ⊢
      simp [sqErr] at this hl ⊢
      exact ⟨this, by linarith⟩
    · have hpal : palette I (DDAPolygon (rne 53) z ps) ps = (DDAPolygon (rne 53) z ps).map fun q => I.px q.1.toNat q.2.toNat := by
        unfold palette; rw [if_neg hqs]
      obtain ⟨c0, h1, h2⟩ := c54_rounded_partial R (I := I) (qs := DDAPolygon (rne 53) z ps) (hne ps hps)
        (by rw [hpal, List.length_map]; omega)
        (by
          rw [hpal]
          intro x hx ch hch
          obtain ⟨q, -, rfl⟩ := List.mem_map.mp hx
          exact (ofBytes_unit R f _ _ ch hch).1)
      have hc0 : c ps = c0 := by simp only [c]; unfold polyPaint; rw [h1]; rfl
      rw [hc0]
      rw [hpal] at h2
      have hlenq : (polyCols (rne 53) z f ps).length = (DDAPolygon (rne 53) z ps).length := by unfold polyCols; simp
      rw [hlenq] at hl
      exact ⟨h1, hv, value_core f hqs hI hu hl h2 rfl⟩
  obtain ⟨out, eo, ho⟩ := polys_out R z (I := I) hw1 hh1 hw hh hQ fun ps hps => (key ps hps).1
  have hpic : ∀ cs : List RGB, cs.length = Q.length → pictureErr I (fun ps q => q ∈ DDAPolygon (rne 53) z ps) (Q.zip cs) = ((Q.zip cs).map fun e => E e.1 e.2).sum :=
    fun cs hl => picture_polys z R hw hh hQ hn rfl rfl (fun _ _ _ _ => Iff.rfl) hl
  have hpc : pictureErr I (fun ps q => q ∈ DDAPolygon (rne 53) z ps) (Q.zip (Q.map c)) = (Q.map fun ps => E ps (c ps)).sum := by
    rw [hpic _ (by simp), zip_self, List.map_map]; rfl
  set S := (Q.map fun ps => E ps (c ps)).sum with hS
  have N1 : (Q.map fun ps => (n ps : ℚ)).sum ≤ w * h := by
    rw [← cast_sum_nat]
    exact_mod_cast hsz
  have hwhq : (w : ℚ) * h ≤ 6800000 := by exact_mod_cast hwh
  have L1 : (Q.length : ℚ) ≤ 2 * (w * h) := by exact_mod_cast hlen
  obtain ⟨Dl, Du⟩ := accum_close R (V := V) (E := fun ps => E ps (c ps)) (n := n) hwhq
    (fun t ht => ⟨(key t ht).2.2.1, (key t ht).2.2.2.1, (key t ht).2.2.2.2.1, (key t ht).2.2.2.2.2.1⟩) N1 L1
  rw [← hS] at Dl Du
  have S0 : 0 ≤ S := List.sum_nonneg fun x hx => by
    obtain ⟨t, ht, rfl⟩ := List.mem_map.mp hx
    exact (key t ht).2.2.2.2.1
  have S1 : S ≤ 4 * (w * h) := by
    have : S ≤ (Q.map fun t => 4 * (n t : ℚ)).sum := List.sum_le_sum fun t ht => (key t ht).2.2.2.2.2.1
    rw [List.sum_map_mul_left] at this
    linarith
  have hv : evalPolys (rne 53) z I bs P = some (polyFinish (rne 53) I ((Q.map V).foldl (fun s x => rne 53 (s + x)) 0)) := by
    rw [evalPolys_eq (V := V) (by rw [hPQ]; exact fun ps hps => (key ps hps).2.1), hPQ]
  generalize (Q.map V).foldl (fun s x => rne 53 (s + x)) 0 = D at *
  have fin := polyFinish_close R (I := I) hw1 hh1 hwh (D := D) (by
    change |D| ≤ 2 * (195075 * ((w : ℚ) * h))
    rw [abs_le]; constructor <;> linarith)
  change |polyFinish (rne 53) I D - (1 - D / (195075 * (w * h)))| ≤ 1 / 2 ^ 40 at fin
  have dif : |D / (195075 * (w * h)) - S / (3 * (w * h))| ≤ 11 / 10 / 195075 := by
    have : D / (195075 * (w * h)) - S / (3 * (w * h)) = (D - 65025 * S) / (195075 * (w * h)) := by field_simp; ring
    rw [this, abs_div, abs_of_pos (show (0 : ℚ) < 195075 * (w * h) by positivity), div_le_iff₀ (by positivity)]
    rw [abs_le]
    constructor <;> linarith
  have tot : |polyFinish (rne 53) I D - (1 - S / (3 * (w * h)))| ≤ 9 / 1000000 := by
    have b1 := abs_le.mp fin
    have b2 := abs_le.mp dif
    norm_num at b1 b2
    rw [abs_le]
    constructor <;> linarith
  have other : ∀ cs' : List RGB, cs'.length = Q.length →
      1 - pictureErr I (fun ps q => q ∈ DDAPolygon (rne 53) z ps) (Q.zip cs') / (3 * (w * h)) ≤ polyFinish (rne 53) I D + 1 / 100000 := by
    intro cs' hl
    have h1 : (Q.map fun t => E t (c t)).sum ≤ ((Q.zip cs').map fun e => E e.1 e.2 + n e.1 / 2 ^ 40).sum :=
      zip_le (E := fun t c' => E t c' + (n t : ℚ) / 2 ^ 40) hl fun t ht c' => (key t ht).2.2.2.2.2.2 c'
    have h2 : ((Q.zip cs').map fun e => E e.1 e.2 + (n e.1 : ℚ) / 2 ^ 40).sum = ((Q.zip cs').map fun e => E e.1 e.2).sum + (((Q.zip cs').map fun e => (n e.1 : ℚ)).sum) / 2 ^ 40 := by
      generalize Q.zip cs' = Z
      clear * -
      induction Z with
      | nil => simp
      | cons e Z ih => simp only [List.map_cons, List.sum_cons, ih]; ring
    have h3 : ((Q.zip cs').map fun e => (n e.1 : ℚ)) = Q.map fun t => (n t : ℚ) := by
      have : (Q.zip cs').map Prod.fst = Q := List.map_fst_zip (by omega)
      conv_rhs => rw [← this]
      rw [List.map_map]
      rfl
    rw [h2, h3, ← hpic cs' hl] at h1
    generalize pictureErr I (fun ps q => q ∈ DDAPolygon (rne 53) z ps) (Q.zip cs') = S' at *
    generalize (Q.map fun t => (n t : ℚ)).sum = N' at *
    have h4 : S / (3 * (w * h)) ≤ S' / (3 * (w * h)) + 1 / 1000000 := by
      rw [div_le_iff₀ (by positivity), add_mul, div_mul_cancel₀ _ (by positivity)]
      norm_num at h1
      linarith
    have b := abs_le.mp tot
    norm_num at b h4 ⊢
    linarith
  refine ⟨out, Q.map c, _, eo, ho, hv, ?_, other, ?_, ?_⟩
  · rw [hpc]
    exact tot.trans (by norm_num)
  · have o := other (Q.map fun _ => ⟨1 / 2, 1 / 2, 1 / 2⟩) (by simp)
    have hh' : pictureErr I (fun ps q => q ∈ DDAPolygon (rne 53) z ps) (Q.zip (Q.map fun _ => ⟨1 / 2, 1 / 2, 1 / 2⟩)) ≤ 3 / 4 * (w * h) := by
      rw [hpic _ (by simp), zip_self, List.map_map]
      have : (Q.map ((fun e : List Pt × RGB => E e.1 e.2) ∘ fun ps => (ps, (⟨1 / 2, 1 / 2, 1 / 2⟩ : RGB)))).sum ≤ (Q.map fun ps => 3 / 4 * (n ps : ℚ)).sum := by
        refine List.sum_le_sum fun ps _ => ?_
        simp only [Function.comp_apply, E, n]
        have := List.sum_le_card_nsmul ((DDAPolygon (rne 53) z ps).map fun q => rgbDist (I.px q.1.toNat q.2.toNat) ⟨1 / 2, 1 / 2, 1 / 2⟩) (3 / 4) (by
          intro x hx
          obtain ⟨q, -, rfl⟩ := List.mem_map.mp hx
          exact half_far (ofBytes_unit R f _ _))
        rw [List.length_map, nsmul_eq_mul] at this
        linarith
      rw [List.sum_map_mul_left] at this
      linarith
    have h5 : pictureErr I (fun ps q => q ∈ DDAPolygon (rne 53) z ps) (Q.zip (Q.map fun _ => ⟨1 / 2, 1 / 2, 1 / 2⟩)) / (3 * (w * h)) ≤ 1 / 4 := by
      rw [div_le_iff₀ (by positivity)]
      linarith
    linarith
  · have b := abs_le.mp tot
    have : 0 ≤ S / (3 * (w * h)) := by positivity
    norm_num at b ⊢
    linarith

end

/-- Two polygons side by side: a pentagon and a quadrilateral. -/
def pair : List (List (ℚ × ℚ)) := [[(5, 0), (14, 3), (12, 11), (4, 12), (1 / 4, 6)], [(14, 3), (20, 1), (19, 12), (12, 11)]]

/-- The conditions of C92 hold for the two polygons. -/
theorem pair_ok : pair.map (roundPoly (rne 53)) = [penta, [⟨14, 3⟩, ⟨20, 1⟩, ⟨19, 12⟩, ⟨12, 11⟩]] ∧
    (∀ ps ∈ pair.map (roundPoly (rne 53)), PolyIn 20 12 ps) ∧ (∀ ps ∈ pair.map (roundPoly (rne 53)), ps ≠ []) ∧
    (∀ ps ∈ pair.map (roundPoly (rne 53)), ∀ t ∈ fan ps, NonDegenerate t) ∧
    ((pair.map (roundPoly (rne 53))).flatMap (DDAPolygon (rne 53) 0)).Nodup ∧ (pair.map (roundPoly (rne 53))).length ≤ 2 * (20 * 12) := by
  have e : pair.map (roundPoly (rne 53)) = [penta, [⟨14, 3⟩, ⟨20, 1⟩, ⟨19, 12⟩, ⟨12, 11⟩]] := by decide +kernel
  rw [e]
  refine ⟨rfl, by unfold PolyIn; decide, by decide, ?_, by decide +kernel, by decide⟩
  intro ps hps t ht
  rw [iori_nondeg]
  revert ps t
  decide

example : ∃ cs v, evalPolys (rne 53) 0 (checker (rne 53) 20 12) 5 pair = some v ∧
    |v - (1 - pictureErr (checker (rne 53) 20 12) (fun ps q => q ∈ DDAPolygon (rne 53) 0 ps) ((pair.map (roundPoly (rne 53))).zip cs) / (3 * ((20 : ℕ) * (12 : ℕ))))| ≤
      1 / 100000 := by
  obtain ⟨-, h1, h2, h3, h4, h5⟩ := pair_ok
  obtain ⟨-, cs, v, -, -, e, k, -⟩ := c92_ieee_partial 0 (w := 20) (h := 12) (P := pair) (fun x y => if (x + y) % 2 = 0 then (0, 0, 0) else (255, 255, 255)) (bs := 5)
    (by norm_num) (by norm_num) (by norm_num) (by norm_num) (by norm_num) (by norm_num) (by norm_num) rfl h1 h2 h3 h4 h5
  exact ⟨cs, v, e, k⟩

/-- In exact arithmetic. -/
example : ∃ cs v, evalPolys id 0 (checker id 20 12) 5 pair = some v ∧
    v = 1 - pictureErr (checker id 20 12) FanOwns ((pair.map (roundPoly id)).zip cs) / (3 * ((20 : ℕ) * (12 : ℕ))) := by
  have e : pair.map (roundPoly id) = [penta, [⟨14, 3⟩, ⟨20, 1⟩, ⟨19, 12⟩, ⟨12, 11⟩]] := by decide +kernel
  obtain ⟨-, cs, v, -, -, h1, h2, -⟩ := c92_exact (w := 20) (h := 12) 0 (fun x y => if (x + y) % 2 = 0 then (0, 0, 0) else (255, 255, 255)) (bs := 5)
    (by norm_num) (by norm_num) (by norm_num) (by norm_num) (by norm_num) (by norm_num) (by norm_num) e (by unfold PolyIn; decide) (by decide) (by decide +kernel)
  rw [e]
  exact ⟨cs, v, h1, h2⟩

/-- If polygons share pixels the fitness is not that of a picture: the same triangle twice is charged twice. -/
theorem c92_overlap_false : ∃ v, evalPolys id 0 (checker id 8 8) 1 (List.replicate 5 [(0, 0), (8, 0), (0, 8)]) = some v ∧ v < 3 / 4 := by
  have key : ((evalPolys id 0 (checker id 8 8) 1 (List.replicate 5 [(0, 0), (8, 0), (0, 8)])).map fun v => decide (v < 3 / 4)) = some true := by
    decide +kernel
  rw [Option.map_eq_some_iff] at key
  obtain ⟨v, h3, h4⟩ := key
  exact ⟨v, h3, of_decide_eq_true h4⟩

end Verif.Props

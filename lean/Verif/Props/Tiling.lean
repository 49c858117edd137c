import Verif.Props.Approx
import Mathlib.Data.List.Sublists
import Mathlib.Analysis.LocallyConvex.Separation

/-! # C98 and C105 for any points: libraries that return a Delaunay tiling

Points with four of them on a circle have several Delaunay triangulations.  Here the library may return any. -/

namespace Verif.Props

open Verif.Tri Verif.Spec Verif.Float Verif.Raster Verif.Fit Verif.Small Verif.Alg
open Verif.Incr hiding trunc step run Entry
open MeasureTheory

/-- A line has `t` on one side and `t'` on the other. -/
def Parted (t t' : Tri) : Prop :=
  ∃ al be ga : ℚ, (al ≠ 0 ∨ be ≠ 0) ∧ (∀ v, IsVertex t v → al * v.x + be * v.y + ga ≤ 0) ∧ ∀ v, IsVertex t' v → 0 ≤ al * v.x + be * v.y + ga

/-- The triangles are a Delaunay triangulation of the points: they have the points as vertices, no point in their circles, no two overlap, and they fill the convex hull. -/
structure Tiling (P : List Pt) (T : List Tri) : Prop where
  nondeg : ∀ t ∈ T, NonDegenerate t
  vertex : ∀ t ∈ T, ∀ v, IsVertex t v → v ∈ P
  empty : ∀ t ∈ T, ∀ v ∈ P, ¬ InsideCircle t v
  apart : T.Pairwise Parted
  cover : ∀ q : P2, ((q.x : ℝ), (q.y : ℝ)) ∈ interior (hull P) → ∃ t ∈ T, Closed t q

/-! ### A line between two triangles -/

theorem small_values {α : Type} (l : List α) (f g : α → ℚ) : ∃ e : ℚ, 0 < e ∧ ∀ v ∈ l, f v ≠ 0 → e * |g v| < |f v| := by
  induction l with
  | nil => exact ⟨1, one_pos, by simp⟩
  | cons x l ih =>
    obtain ⟨e, he, h⟩ := ih
    by_cases h0 : f x = 0
    · refine ⟨e, he, fun y hy n => ?_⟩
      rcases List.mem_cons.mp hy with rfl | hy
      · exact absurd h0 n
      · exact h y hy n
    · have p : 0 < |f x| := abs_pos.mpr h0
      have d : 0 < |g x| + 1 := by positivity
      refine ⟨min e (|f x| / (|g x| + 1)), lt_min he (by positivity), fun y hy n => ?_⟩
      rcases List.mem_cons.mp hy with rfl | hy
      · calc min e (|f y| / (|g y| + 1)) * |g y| ≤ |f y| / (|g y| + 1) * |g y| := mul_le_mul_of_nonneg_right (min_le_right _ _) (abs_nonneg _)
          _ < |f y| / (|g y| + 1) * (|g y| + 1) := by
            have : 0 < |f y| / (|g y| + 1) := by positivity
            nlinarith
          _ = |f y| := by field_simp
      · exact lt_of_le_of_lt (mul_le_mul_of_nonneg_right (min_le_left _ _) (abs_nonneg _)) (h y hy n)

/-- A linear function with given values at two points. -/
theorem interpolate (X Y : Pt) (a b : ℚ) (hab : X = Y → a = b) : ∃ p q r : ℚ, p * X.x + q * X.y + r = a ∧ p * Y.x + q * Y.y + r = b := by
  by_cases h : X = Y
  · exact ⟨0, 0, a, by ring, by rw [hab h]; ring⟩
  · have hd : ((Y.x : ℚ) - X.x) ^ 2 + (Y.y - X.y) ^ 2 ≠ 0 := by
      intro h0
      have h1 : ((Y.x : ℚ) - X.x) = 0 := by nlinarith [sq_nonneg ((Y.x : ℚ) - X.x), sq_nonneg ((Y.y : ℚ) - X.y)]
      have h2 : ((Y.y : ℚ) - X.y) = 0 := by nlinarith [sq_nonneg ((Y.x : ℚ) - X.x), sq_nonneg ((Y.y : ℚ) - X.y)]
      apply h
      cases X
      cases Y
      simp only [Pt.mk.injEq] at *
      have e1 : (_ : ℚ) = _ := sub_eq_zero.mp h1
      have e2 : (_ : ℚ) = _ := sub_eq_zero.mp h2
      exact ⟨by exact_mod_cast e1.symm, by exact_mod_cast e2.symm⟩
    generalize hD : ((Y.x : ℚ) - X.x) ^ 2 + (Y.y - X.y) ^ 2 = D at hd
    refine ⟨(b - a) * (Y.x - X.x) / D, (b - a) * (Y.y - X.y) / D, a - ((b - a) * (Y.x - X.x) / D * X.x + (b - a) * (Y.y - X.y) / D * X.y), by ring, ?_⟩
    have : (b - a) * (Y.x - X.x) / D * Y.x + (b - a) * (Y.y - X.y) / D * Y.y + (a - ((b - a) * (Y.x - X.x) / D * X.x + (b - a) * (Y.y - X.y) / D * X.y)) =
        a + (b - a) * (((Y.x : ℚ) - X.x) ^ 2 + (Y.y - X.y) ^ 2) / D := by ring
    rw [this, hD, mul_div_assoc, div_self hd]
    ring

/-- If at most two points of the triangles are on the line, it can be turned a little such that only shared vertices are on it. -/
theorem sep_between {t t' : Tri} {al be ga : ℚ} (neg : ∀ v, IsVertex t v → al * v.x + be * v.y + ga ≤ 0) (pos : ∀ v, IsVertex t' v → 0 ≤ al * v.x + be * v.y + ga)
    {X Y : Pt} (two : ∀ v, IsVertex t v ∨ IsVertex t' v → al * v.x + be * v.y + ga = 0 → v = X ∨ v = Y) : ∃ al be ga, Between al be ga t t' := by
  classical
  let k : Pt → ℚ := fun v => (if IsVertex t' v then 1 else 0) - if IsVertex t v then 1 else 0
  obtain ⟨p, q, r, h1, h2⟩ := interpolate X Y (k X) (k Y) (fun h => by rw [h])
  have K : ∀ v, IsVertex t v ∨ IsVertex t' v → al * v.x + be * v.y + ga = 0 → p * v.x + q * v.y + r = k v := by
    intro v hv hz
    rcases two v hv hz with rfl | rfl
    exacts [h1, h2]
  obtain ⟨e, he, hs⟩ := small_values [t.a, t.b, t.c, t'.a, t'.b, t'.c] (fun v => al * v.x + be * v.y + ga) (fun v => p * v.x + q * v.y + r)
  have sm : ∀ v, IsVertex t v ∨ IsVertex t' v → al * v.x + be * v.y + ga ≠ 0 → |e * (p * v.x + q * v.y + r)| < |al * v.x + be * v.y + ga| := by
    intro v hv hz
    rw [abs_mul, abs_of_pos he]
    refine hs v ?_ hz
    rcases hv with (h | h | h) | (h | h | h) <;> rw [h] <;> simp
  have ex : ∀ v : Pt, (al + e * p) * v.x + (be + e * q) * v.y + (ga + e * r) = (al * v.x + be * v.y + ga) + e * (p * v.x + q * v.y + r) := by intro v; ring
  have tn : ∀ v, IsVertex t v → al * v.x + be * v.y + ga ≠ 0 → (al + e * p) * v.x + (be + e * q) * v.y + (ga + e * r) < 0 := by
    intro v hv hz
    have h := sm v (Or.inl hv) hz
    have l := lt_of_le_of_ne (neg v hv) hz
    rw [abs_of_neg l, abs_lt] at h
    rw [ex]
    linarith [h.2]
  have tp : ∀ v, IsVertex t' v → al * v.x + be * v.y + ga ≠ 0 → 0 < (al + e * p) * v.x + (be + e * q) * v.y + (ga + e * r) := by
    intro v hv hz
    have h := sm v (Or.inr hv) hz
    have l := lt_of_le_of_ne (pos v hv) (Ne.symm hz)
    rw [abs_of_pos l, abs_lt] at h
    rw [ex]
    linarith [h.1]
  refine ⟨al + e * p, be + e * q, ga + e * r, ⟨fun v hv => ?_, fun v hv => ?_, fun v hv h => ?_, fun v hv h => ?_⟩⟩
  · by_cases hz : al * v.x + be * v.y + ga = 0
    · rw [ex, hz, K v (Or.inl hv) hz]
      simp only [k, if_pos hv]
      split <;> nlinarith
    · exact (tn v hv hz).le
  · by_cases hz : al * v.x + be * v.y + ga = 0
    · rw [ex, hz, K v (Or.inr hv) hz]
      simp only [k, if_pos hv]
      split <;> nlinarith
    · exact (tp v hv hz).le
  · by_cases hz : al * v.x + be * v.y + ga = 0
    · rw [ex, hz, K v (Or.inl hv) hz] at h
      by_contra hn
      simp only [k, if_pos hv, if_neg hn] at h
      linarith
    · exact absurd h (tn v hv hz).ne
  · by_cases hz : al * v.x + be * v.y + ga = 0
    · rw [ex, hz, K v (Or.inr hv) hz] at h
      by_contra hn
      simp only [k, if_pos hv, if_neg hn] at h
      linarith
    · exact absurd h (tp v hv hz).ne'

/-- A line meets a circle in at most two points. -/
theorem line_circle {al be ga R : ℚ} (h0 : al ≠ 0 ∨ be ≠ 0) (o : P2) (S : Pt → Prop) (line : ∀ v, S v → al * v.x + be * v.y + ga = 0) (circ : ∀ v, S v → d2 o v = R) :
    ∃ X Y, ∀ v, S v → v = X ∨ v = Y := by
  have three : ∀ u v w, S u → S v → S w → u ≠ v → u ≠ w → v = w := by
    intro u v w hu hv hw n1 n2
    have nn : 0 < al ^ 2 + be ^ 2 := by
      rcases h0 with h | h
      · have := sq_nonneg be; have : 0 < al ^ 2 := by positivity
        linarith
      · have := sq_nonneg al; have : 0 < be ^ 2 := by positivity
        linarith
    -- multiples of the direction
    have par : ∀ p q : Pt, S p → S q → ∃ s : ℚ, (p.x : ℚ) - q.x = s * -be ∧ (p.y : ℚ) - q.y = s * al := by
      intro p q hp hq
      have a := line p hp
      have b := line q hq
      refine ⟨(((p.y : ℚ) - q.y) * al - (p.x - q.x) * be) / (al ^ 2 + be ^ 2), ?_, ?_⟩
      · rw [div_mul_eq_mul_div, eq_div_iff nn.ne']
        have : al * ((p.x : ℚ) - q.x) + be * (p.y - q.y) = 0 := by linarith
        linear_combination al * this
      · rw [div_mul_eq_mul_div, eq_div_iff nn.ne']
        have : al * ((p.x : ℚ) - q.x) + be * (p.y - q.y) = 0 := by linarith
        linear_combination be * this
    have mid : ∀ p q : Pt, S p → S q → p ≠ q → -be * ((p.x : ℚ) + q.x - 2 * o.x) + al * (p.y + q.y - 2 * o.y) = 0 := by
      intro p q hp hq ne
      obtain ⟨s, e1, e2⟩ := par p q hp hq
      have hs : s ≠ 0 := by
        rintro rfl
        apply ne
        cases p
        cases q
        simp only [Pt.mk.injEq, zero_mul] at *
        have e1 : (_ : ℚ) = _ := sub_eq_zero.mp e1
        have e2 : (_ : ℚ) = _ := sub_eq_zero.mp e2
        exact ⟨by exact_mod_cast e1, by exact_mod_cast e2⟩
      have c : d2 o p = d2 o q := by rw [circ p hp, circ q hq]
      unfold d2 at c
      have : s * (-be * ((p.x : ℚ) + q.x - 2 * o.x) + al * (p.y + q.y - 2 * o.y)) = 0 := by
        linear_combination c - ((p.x : ℚ) + q.x - 2 * o.x) * e1 - ((p.y : ℚ) + q.y - 2 * o.y) * e2
      exact (mul_eq_zero.mp this).resolve_left hs
    have m1 := mid u v hu hv n1
    have m2 := mid u w hu hw n2
    obtain ⟨s, e1, e2⟩ := par v w hv hw
    have : s * (al ^ 2 + be ^ 2) = 0 := by linear_combination m1 - m2 + be * e1 - al * e2
    have hs := (mul_eq_zero.mp this).resolve_right nn.ne'
    rw [hs, zero_mul] at e1 e2
    cases v
    cases w
    simp only [Pt.mk.injEq] at *
    have e1 : (_ : ℚ) = _ := sub_eq_zero.mp e1
    have e2 : (_ : ℚ) = _ := sub_eq_zero.mp e2
    exact ⟨by exact_mod_cast e1, by exact_mod_cast e2⟩
  by_cases hX : ∃ X, S X
  · obtain ⟨X, hX⟩ := hX
    by_cases hY : ∃ Y, S Y ∧ Y ≠ X
    · obtain ⟨Y, hY, ne⟩ := hY
      refine ⟨X, Y, fun v hv => ?_⟩
      by_cases h : v = X
      · exact Or.inl h
      · exact Or.inr (three X v Y hX hv hY (Ne.symm h) (Ne.symm ne))
    · push Not at hY
      exact ⟨X, X, fun v hv => Or.inl (hY v hv)⟩
  · push Not at hX
    exact ⟨⟨0, 0⟩, ⟨0, 0⟩, fun v hv => absurd hv (hX v)⟩

/-- A line between two triangles of a Delaunay tiling that meets them in shared vertices only. -/
theorem parted_between {W : Pt → Prop} {t t' : Tri} (nd : NonDegenerate t) (nd' : NonDegenerate t')
    (hv : ∀ v, IsVertex t v → W v) (hv' : ∀ v, IsVertex t' v → W v) (he : ∀ v, W v → ¬ InsideCircle t v) (he' : ∀ v, W v → ¬ InsideCircle t' v) (ap : Parted t t') :
    ∃ al be ga, Between al be ga t t' := by
  obtain ⟨o, hc⟩ := centre_exists nd
  obtain ⟨o', hc'⟩ := centre_exists nd'
  have lin : ∀ v : Pt, (2 * (o'.x - o.x)) * v.x + (2 * (o'.y - o.y)) * v.y + (o.x ^ 2 + o.y ^ 2 - o'.x ^ 2 - o'.y ^ 2 - d2 o t.a + d2 o' t'.a) =
      (d2 o v - d2 o t.a) - (d2 o' v - d2 o' t'.a) := by
    intro v
    have e : ∀ p : P2, d2 p v = p.x ^ 2 + p.y ^ 2 - 2 * p.x * v.x - 2 * p.y * v.y + v.x ^ 2 + v.y ^ 2 := by intro p; unfold d2; ring
    rw [e o, e o']
    ring
  have eq : ∀ {t : Tri} {o : P2}, Centre t o → ∀ v, IsVertex t v → d2 o v = d2 o t.a := by
    rintro t o h v (rfl | rfl | rfl)
    exacts [rfl, h.1.symm, h.2.symm]
  have out : ∀ {t : Tri} {o : P2}, Centre t o → (∀ v, W v → ¬ InsideCircle t v) → ∀ v, W v → d2 o t.a ≤ d2 o v := by
    intro t o h hi v hw
    by_contra hlt
    exact hi v hw ⟨o, h, not_le.mp hlt⟩
  by_cases ho : o = o'
  · subst ho
    have r : d2 o t'.a = d2 o t.a := le_antisymm (out hc' he' t.a (hv _ (Or.inl rfl))) (out hc he t'.a (hv' _ (Or.inl rfl)))
    obtain ⟨al, be, ga, h0, neg, pos⟩ := ap
    obtain ⟨X, Y, two⟩ := line_circle (R := d2 o t.a) h0 o (fun v => (IsVertex t v ∨ IsVertex t' v) ∧ al * v.x + be * v.y + ga = 0) (fun v h => h.2) (fun v h => by
      rcases h.1 with h | h
      · exact eq hc v h
      · rw [← r]; exact eq hc' v h)
    exact sep_between neg pos (X := X) (Y := Y) fun v h hz => two v ⟨h, hz⟩
  · have neg : ∀ v, IsVertex t v → (2 * (o'.x - o.x)) * v.x + (2 * (o'.y - o.y)) * v.y + (o.x ^ 2 + o.y ^ 2 - o'.x ^ 2 - o'.y ^ 2 - d2 o t.a + d2 o' t'.a) ≤ 0 := by
      intro v h
      rw [lin v, eq hc v h]
      have := out hc' he' v (hv v h)
      linarith
    have pos : ∀ v, IsVertex t' v → 0 ≤ (2 * (o'.x - o.x)) * v.x + (2 * (o'.y - o.y)) * v.y + (o.x ^ 2 + o.y ^ 2 - o'.x ^ 2 - o'.y ^ 2 - d2 o t.a + d2 o' t'.a) := by
      intro v h
      rw [lin v, eq hc' v h]
      have := out hc he v (hv' v h)
      linarith
    have h0 : 2 * (o'.x - o.x) ≠ 0 ∨ 2 * (o'.y - o.y) ≠ 0 := by
      by_contra hcon
      push Not at hcon
      apply ho
      cases o
      cases o'
      simp only [P2.mk.injEq] at *
      constructor <;> linarith [hcon.1, hcon.2]
    obtain ⟨X, Y, two⟩ := line_circle (R := d2 o t.a) h0 o (fun v => (IsVertex t v ∨ IsVertex t' v) ∧
        (2 * (o'.x - o.x)) * v.x + (2 * (o'.y - o.y)) * v.y + (o.x ^ 2 + o.y ^ 2 - o'.x ^ 2 - o'.y ^ 2 - d2 o t.a + d2 o' t'.a) = 0) (fun v h => h.2) (fun v h => by
      obtain ⟨h, hz⟩ := h
      rcases h with h | h
      · exact eq hc v h
      · rw [lin v, eq hc' v h] at hz
        linarith)
    exact sep_between neg pos (X := X) (Y := Y) fun v h hz => two v ⟨h, hz⟩

theorem Parted.ne {t t' : Tri} (nd : NonDegenerate t) (ap : Parted t t') : verts t ≠ verts t' := by
  intro e
  obtain ⟨al, be, ga, h0, neg, pos⟩ := ap
  have z : ∀ v, IsVertex t v → al * v.x + be * v.y + ga = 0 := fun v hv => le_antisymm (neg v hv) (pos v (by rw [← mem_verts, ← e, mem_verts]; exact hv))
  have za := z t.a (Or.inl rfl)
  have zb := z t.b (Or.inr (Or.inl rfl))
  have zc := z t.c (Or.inr (Or.inr rfl))
  have hD : area2 t.a t.b (loc t.c) ≠ 0 := nd
  apply hD
  have e1 : al * area2 t.a t.b (loc t.c) = 0 := by
    unfold area2 loc
    linear_combination ((t.c.y : ℚ) - t.a.y) * (zb - za) - ((t.b.y : ℚ) - t.a.y) * (zc - za)
  have e2 : be * area2 t.a t.b (loc t.c) = 0 := by
    unfold area2 loc
    linear_combination ((t.b.x : ℚ) - t.a.x) * (zc - za) - ((t.c.x : ℚ) - t.a.x) * (zb - za)
  rcases h0 with h | h
  · exact (mul_eq_zero.mp e1).resolve_left h
  · exact (mul_eq_zero.mp e2).resolve_left h

/-- A Delaunay tiling of points of the image is a mesh. -/
theorem Tiling.mesh {P : List Pt} {T : List Tri} (D : Tiling P T) {w h : Nat} (hw : w ≤ 32767) (hh : h ≤ 32767) (img : ∀ v ∈ P, 0 ≤ v.x ∧ v.x ≤ w ∧ 0 ≤ v.y ∧ v.y ≤ h) : Mesh w h T := by
  have im : ∀ t ∈ T, InImage w h t := fun t ht v hvl => img v (D.vertex t ht v (by simpa [vlist, IsVertex] using hvl))
  have bt : ∀ {t t' : Tri}, t ∈ T → t' ∈ T → Parted t t' → ∃ al be ga, Between al be ga t t' := fun {t t'} ht ht' ap =>
    parted_between (W := (· ∈ P)) (D.nondeg t ht) (D.nondeg t' ht') (D.vertex t ht) (D.vertex t' ht') (D.empty t ht) (D.empty t' ht') ap
  refine ⟨im, D.nondeg, ?_, fun fl R z q => ?_⟩
  · refine area_sum_le (D.apart.imp_of_mem fun {t t'} ht ht' ap => ?_) fun t ht => openTri_image (im t ht)
    obtain ⟨al, be, ga, B⟩ := bt ht ht' ap
    exact B.disjoint (D.nondeg t ht) (D.nondeg t' ht') (ap.ne (D.nondeg t ht))
  · unfold visits
    have hm : Monotone fl := fun a b => R.mono a b
    refine sum_le_one (fun a ha => ?_) ?_
    · obtain ⟨t, -, rfl⟩ := List.mem_map.mp ha
      rw [show q = (q.1, q.2) from rfl, count_vis hm]
      exact vis_le_one _ _
    · rw [List.pairwise_map]
      refine D.apart.imp_of_mem fun {t t'} ht ht' ap => ?_
      obtain ⟨al, be, ga, B⟩ := bt ht ht' ap
      rw [show q = (q.1, q.2) from rfl, count_vis hm, count_vis hm]
      exact B.apart (D.nondeg t ht) (D.nondeg t' ht') (ap.ne (D.nondeg t ht)) R hw hh (im t ht) (im t' ht') q.1 q.2

/-! ### C98 -/

/-- **C98**, no overlap, also of points of which several pixels are on a circle (partial: images up to 32767 pixels a side): if the triangles that `Triangulate` returns are a Delaunay triangulation
of the pixels, their areas add up to at most that of the image and the rasteriser visits no pixel for two of them, with any rounding. -/
theorem c98_tiling_partial {lib : List Pt → List Nat} {fl : ℚ → ℚ} (R : Rnd 53 fl) {w h : Nat} (hw : w ≤ 32767) (hh : h ≤ 32767) {ps : List NP}
    (hu : ∀ p ∈ ps, Alg.Unit01 p) {T : List Tri} (_hT : triangulate lib fl w h ps = some T) (D : Tiling (ps.map (groupPoint fl w h)) T) :
    (T.map area).sum ≤ w * h ∧ ∀ fl', Rnd 53 fl' → ∀ z, (T.flatMap (DDATriangle fl' z)).Nodup ∧ ∀ q ∈ T.flatMap (DDATriangle fl' z), IsPixel w h q := by
  have M := D.mesh hw hh (by
    intro v hv
    obtain ⟨p, hp, rfl⟩ := List.mem_map.mp hv
    exact groupPoint_in R hw hh (hu p hp))
  refine ⟨M.area, fun fl' R' z => ⟨?_, fun q hq => ?_⟩⟩
  · rw [List.nodup_iff_count_le_one]
    intro q
    rw [List.count_flatMap]
    exact M.once fl' R' z q
  · obtain ⟨t, ht, hq⟩ := List.mem_flatMap.mp hq
    exact (c29_bounds R' z (by omega) (by omega) t (M.img t ht) (bs := 1) le_rfl).2.2 q hq

/-! ### C105 -/

theorem closed_shut {t : Tri} {q : P2} (h : Closed t q) : ((q.x : ℝ), (q.y : ℝ)) ∈ shutTri t := by
  have sum : area2 t.a t.b q + area2 t.b t.c q + area2 t.c t.a q = area2 t.a t.b (loc t.c) := by unfold area2 loc; ring
  have key : 0 ≤ area2 t.a t.b (loc t.c) * area2 t.a t.b q ∧ 0 ≤ area2 t.a t.b (loc t.c) * area2 t.b t.c q ∧ 0 ≤ area2 t.a t.b (loc t.c) * area2 t.c t.a q := by
    rcases h with ⟨k1, k2, k3⟩ | ⟨k1, k2, k3⟩
    · have : 0 ≤ area2 t.a t.b (loc t.c) := by linarith
      exact ⟨mul_nonneg this k1, mul_nonneg this k2, mul_nonneg this k3⟩
    · have : area2 t.a t.b (loc t.c) ≤ 0 := by linarith
      exact ⟨mul_nonneg_of_nonpos_of_nonpos this k1, mul_nonneg_of_nonpos_of_nonpos this k2, mul_nonneg_of_nonpos_of_nonpos this k3⟩
  obtain ⟨k1, k2, k3⟩ := key
  have fin : ∀ u v : Pt, 0 ≤ area2 t.a t.b (loc t.c) * area2 u v q → 0 ≤ rarea t.a t.b (rloc t.c) * rarea u v ((q.x : ℝ), (q.y : ℝ)) := by
    intro u v hp
    rw [rarea_rat, rloc, rarea_cast]
    exact_mod_cast hp
  exact ⟨fin _ _ k1, fin _ _ k2, fin _ _ k3⟩

/-- Locations at least `r` away from the border are in the hull of points within `r` of every location. -/
theorem net_hull {P : List Pt} {w h : Nat} {r : ℝ} (hr : 0 ≤ r) (net : ∀ x y : ℝ, 0 ≤ x → x ≤ w → 0 ≤ y → y ≤ h → ∃ p ∈ P, ((p.x : ℝ) - x) ^ 2 + (p.y - y) ^ 2 ≤ r ^ 2) {q : ℝ × ℝ}
    (x1 : r ≤ q.1) (x2 : q.1 ≤ w - r) (y1 : r ≤ q.2) (y2 : q.2 ≤ h - r) : q ∈ hull P := by
  by_contra hq
  have fin : (rloc '' {p | p ∈ P}).Finite := (List.finite_toSet P).image _
  obtain ⟨f, u, h1, h2⟩ := geometric_hahn_banach_closed_point (convex_convexHull ℝ _) (fin.isClosed_convexHull ℝ) hq
  set a := f (1, 0)
  set b := f (0, 1)
  have ev : ∀ x y : ℝ, f (x, y) = a * x + b * y := by
    intro x y
    have : ((x, y) : ℝ × ℝ) = x • ((1, 0) : ℝ × ℝ) + y • ((0, 1) : ℝ × ℝ) := by simp
    rw [this, map_add, map_smul, map_smul, smul_eq_mul, smul_eq_mul]
    ring
  have far : ∀ p ∈ P, a * p.x + b * p.y < a * q.1 + b * q.2 := by
    intro p hp
    have k := h1 (rloc p) (subset_convexHull ℝ _ ⟨p, hp, rfl⟩)
    rw [rloc, ev] at k
    have k2 : u < f (q.1, q.2) := h2
    rw [ev] at k2
    linarith
  -- a unit vector in the direction
  obtain ⟨n, c, d, hn, hcd, ea, eb⟩ : ∃ n c d : ℝ, 0 ≤ n ∧ c ^ 2 + d ^ 2 = 1 ∧ a = n * c ∧ b = n * d := by
    by_cases h0 : a ^ 2 + b ^ 2 = 0
    · have e1 : a = 0 := by nlinarith [sq_nonneg a, sq_nonneg b]
      have e2 : b = 0 := by nlinarith [sq_nonneg a, sq_nonneg b]
      exact ⟨0, 1, 0, le_rfl, by norm_num, by rw [e1]; ring, by rw [e2]; ring⟩
    · have pos : 0 < a ^ 2 + b ^ 2 := lt_of_le_of_ne (by positivity) (Ne.symm h0)
      have s0 := Real.sqrt_pos.mpr pos
      have s2 := Real.sq_sqrt pos.le
      refine ⟨√(a ^ 2 + b ^ 2), a / √(a ^ 2 + b ^ 2), b / √(a ^ 2 + b ^ 2), s0.le, ?_, ?_, ?_⟩
      · rw [div_pow, div_pow, s2, ← add_div, div_self h0]
      · field_simp
      · field_simp
  have c1 : |c| ≤ 1 := abs_le_one_iff_mul_self_le_one.mpr (by nlinarith [sq_nonneg d])
  have d1 : |d| ≤ 1 := abs_le_one_iff_mul_self_le_one.mpr (by nlinarith [sq_nonneg c])
  obtain ⟨c2, c3⟩ := abs_le.mp c1
  obtain ⟨d2, d3⟩ := abs_le.mp d1
  obtain ⟨p, hp, hd⟩ := net (q.1 + r * c) (q.2 + r * d) (by nlinarith) (by nlinarith) (by nlinarith) (by nlinarith)
  have k := far p hp
  rw [ea, eb] at k
  -- the point is at most `r` behind
  have cs : (c * (p.x - (q.1 + r * c)) + d * (p.y - (q.2 + r * d))) ^ 2 ≤ r ^ 2 := by
    have id : (c * (p.x - (q.1 + r * c)) + d * (p.y - (q.2 + r * d))) ^ 2 + (c * (p.y - (q.2 + r * d)) - d * (p.x - (q.1 + r * c))) ^ 2 =
        (c ^ 2 + d ^ 2) * (((p.x : ℝ) - (q.1 + r * c)) ^ 2 + (p.y - (q.2 + r * d)) ^ 2) := by ring
    rw [hcd, one_mul] at id
    nlinarith [sq_nonneg (c * (p.y - (q.2 + r * d)) - d * (p.x - (q.1 + r * c)))]
  have lo := (abs_le.mp (abs_le_of_sq_le_sq cs hr)).1
  have e : c * (p.x - (q.1 + r * c)) + d * (p.y - (q.2 + r * d)) = c * p.x + d * p.y - (c * q.1 + d * q.2) - r * (c ^ 2 + d ^ 2) := by ring
  rw [e, hcd, mul_one] at lo
  have := mul_nonneg hn (show 0 ≤ c * p.x + d * p.y - (c * q.1 + d * q.2) by linarith)
  linarith

section
open Classical

/-- The triangles of a Delaunay tiling with a small circle cover all but a border of the image. -/
theorem Tiling.small_area {P : List Pt} {T : List Tri} (D : Tiling P T) {w h : Nat} {r δ B : ℚ} (hr : 0 ≤ r) (hδ : 0 < δ) (hB : δ + 2 * r ≤ B) (hB2 : (δ + 2 * r) ^ 2 ≤ 2 * δ * B)
    (mw : 2 * (δ + r) ≤ w)
    (net : ∀ x y : ℝ, 0 ≤ x → x ≤ w → 0 ≤ y → y ≤ h → ∃ p ∈ P, ((p.x : ℝ) - x) ^ 2 + (p.y - y) ^ 2 ≤ (r : ℝ) ^ 2) :
    (w - 2 * (δ + r)) * (h - 2 * (δ + r)) ≤ ((T.filter fun t => decide (SmallCircle B t)).map area).sum := by
  have key := cover_area_shut (T := T.filter fun t => decide (SmallCircle B t)) (a := δ + r) (b := w - (δ + r)) (c := δ + r) (d := h - (δ + r))
    (fun t ht => D.nondeg t (List.mem_filter.mp ht).1) (by linarith) fun q x1 x2 y1 y2 => by
      have S : Surrounded (↑P : Multiset Pt) q (δ + 2 * r) δ := surrounded_net hr hδ.le (by simpa using net) x1.le x2.le y1.le y2.le
      have inside : ((q.x : ℝ), (q.y : ℝ)) ∈ interior (hull P) := by
        refine mem_interior.mpr ⟨Set.Ioo (r : ℝ) (w - r) ×ˢ Set.Ioo (r : ℝ) (h - r), ?_, isOpen_Ioo.prod isOpen_Ioo, ?_⟩
        · rintro p ⟨⟨a1, a2⟩, b1, b2⟩
          exact net_hull (by exact_mod_cast hr) net a1.le a2.le b1.le b2.le
        · have l1 : r < q.x := by linarith
          have l2 : q.x + r < w := by linarith
          have l3 : r < q.y := by linarith
          have l4 : q.y + r < h := by linarith
          have l1 : (r : ℝ) < q.x := by exact_mod_cast l1
          have l2 : (q.x : ℝ) + r < w := by exact_mod_cast l2
          have l3 : (r : ℝ) < q.y := by exact_mod_cast l3
          have l4 : (q.y : ℝ) + r < h := by exact_mod_cast l4
          exact ⟨⟨l1, by simp only; linarith⟩, l3, by simp only; linarith⟩
      obtain ⟨t, ht, hq⟩ := D.cover q inside
      refine ⟨t, List.mem_filter.mpr ⟨ht, ?_⟩, closed_shut hq⟩
      obtain ⟨o, ho⟩ := centre_exists (D.nondeg t ht)
      simp only [decide_eq_true_eq]
      refine ⟨o, ho, small_disc S hδ (by linarith) hB hB2 (closed_disc (D.nondeg t ht) ho hq) fun p hp => ?_⟩
      by_contra hlt
      exact D.empty t ht p (by simpa using hp) ⟨o, ho, not_le.mp hlt⟩
  calc _ = (w - (δ + r) - (δ + r)) * (h - (δ + r) - (δ + r)) := by ring
    _ ≤ _ := key

end

/-- **C105** (partial: IEEE arithmetic, images up to 6800000 pixels): if `Triangulate` returns a Delaunay triangulation of the pixels of the points and every location of the image is within `r` of such a
pixel, the picture that `TrianglesOnImage` describes has a quality of at least the share of the image that is `2 r` or more away from the border, minus what the colours of the image vary
within a distance of `9 r`. -/
theorem c105_exported_partial {lib : List Pt → List Nat} {w h : Nat} (hw1 : 1 ≤ w) (hh1 : 1 ≤ h) (hw : w ≤ 32767) (hh : h ≤ 32767) (hwh : w * h ≤ 6800000) {ps : List NP}
    (hu : ∀ p ∈ ps, Alg.Unit01 p) {T : List Tri} (_hT : triangulate lib (rne 53) w h ps = some T) (D : Tiling (ps.map (groupPoint (rne 53) w h)) T) {r η : ℚ} (hr : 0 < r) (mw : 4 * r ≤ w)
    (net : ∀ x y : ℝ, 0 ≤ x → x ≤ w → 0 ≤ y → y ≤ h → ∃ p ∈ ps.map (groupPoint (rne 53) w h), ((p.x : ℝ) - x) ^ 2 + (p.y - y) ^ 2 ≤ (r : ℝ) ^ 2)
    (z : ℚ) (f : Nat → Nat → Fin 256 × Fin 256 × Fin 256) (G : Gentle (ofBytes (rne 53) w h f) (9 * r) η) :
    ∃ out cs, trianglesOnImage (rne 53) z (ofBytes (rne 53) w h f) T = some out ∧ out.map Prod.snd = cs.map some ∧
      (1 - 4 * r / w) * (1 - 4 * r / h) - η - 1 / 50000 ≤ quality z (ofBytes (rne 53) w h f) T cs := by
  classical
  have R : Rnd 53 (rne 53) := rne_rnd (by norm_num)
  have img : ∀ v ∈ ps.map (groupPoint (rne 53) w h), 0 ≤ v.x ∧ v.x ≤ w ∧ 0 ≤ v.y ∧ v.y ≤ h := by
    intro v hv
    obtain ⟨p, hp, rfl⟩ := List.mem_map.mp hv
    exact groupPoint_in R hw hh (hu p hp)
  have M := D.mesh hw hh img
  obtain ⟨v, e1, e2⟩ := fitness_small (B := 9 * r / 2) z f (bs := 5) (by norm_num) (by norm_num) hw1 hh1 hw hh hwh M (by rw [show 2 * (9 * r / 2) = 9 * r by ring]; exact G)
  obtain ⟨out, cs, v', h1, h2, h3, h4, -⟩ := c87_ieee z f (bs := 5) (by norm_num) (by norm_num) hw1 hh1 hw hh hwh M
  obtain rfl : v = v' := Option.some.inj (e1.symm.trans h3)
  refine ⟨out, cs, h1, h2, ?_⟩
  have small := D.small_area (δ := r) (B := 9 * r / 2) hr.le hr (by linarith) (by nlinarith) (by linarith) net
  have hw0 : (0 : ℚ) < w := by exact_mod_cast hw1
  have hh0 : (0 : ℚ) < h := by exact_mod_cast hh1
  have share : (1 - 4 * r / w) * (1 - 4 * r / h) ≤ ((T.filter fun t => decide (SmallCircle (9 * r / 2) t)).map area).sum / (w * h) := by
    rw [le_div_iff₀ (by positivity)]
    calc (1 - 4 * r / w) * (1 - 4 * r / h) * (w * h) = (w - 2 * (r + r)) * (h - 2 * (r + r)) := by field_simp; ring
      _ ≤ _ := small
  have := (abs_le.mp h4).2
  unfold quality
  have e : ((ofBytes (rne 53) w h f).w : ℚ) = w ∧ ((ofBytes (rne 53) w h f).h : ℚ) = h := ⟨rfl, rfl⟩
  rw [e.1, e.2]
  linarith

/-- **C105**, `DefaultAlgorithm` (partial: for best points in general position, IEEE arithmetic, images up to 4096 pixels a side and 6800000 pixels): once a member of the population is dense as above, the
picture that is exported for `Best()` is about as good, whichever member is the best. -/
theorem c105_default_partial {σ : Type} {r : Source σ} {im : Source16} {n : Int} {srt : Alg.Sorter} {z : ℚ} {bf : D → D → Bufs} {s0 : σ} {lib : List Pt → List Nat} (L : LibOnce lib)
    (S : DefaultOK r im n srt) {k : Nat} {a : Algo D Tri} {s : σ} (h : DefaultExec ieee srt z bf r im n s0 k a s) (C : Regular (theImage im) a.best)
    (hwh : im.maxX.toNat * im.maxY.toNat ≤ 6800000) {ρ η : ℚ} (hr : 0 < ρ) (hn : 18 * ρ < 3 * (side im.maxX.toNat im.maxY.toNat : ℚ) - 1) (mw : 4 * ρ ≤ (im.maxX.toNat : ℚ))
    (G : Gentle (theImage im) (9 * ρ) η) {ps : List NP} (hp : ps ∈ a.pop)
    (net : ∀ x y : ℝ, 0 ≤ x → x ≤ im.maxX.toNat → 0 ≤ y → y ≤ im.maxY.toNat → ∃ p ∈ pix (rne 53) (theImage im) ps, ((p.x : ℝ) - x) ^ 2 + (p.y - y) ^ 2 ≤ (ρ : ℝ) ^ 2) :
    ∃ T out cs, triangulate lib (rne 53) im.maxX.toNat im.maxY.toNat a.best = some T ∧ trianglesOnImage (rne 53) z (theImage im) T = some out ∧ out.map Prod.snd = cs.map some ∧
      (1 - 4 * ρ / im.maxX.toNat) * (1 - 4 * ρ / im.maxY.toNat) - η - 1 / 40000 ≤ quality z (theImage im) T cs := by
  obtain ⟨T, out, cs, h1, h2, h3, h4⟩ := c98_default_partial L S hwh h C
  have := c103_default_partial S h hwh hr hn mw G hp net
  exact ⟨T, out, cs, h1, h2, h3, by linarith⟩

/-! ### Case: a square grid, every square of which has its corners on a circle -/

/-- The points, as floats. -/
def evenPoints : List NP := (List.range 7).flatMap fun i : Nat => (List.range 7).map fun j : Nat => ⟨rne 53 (i / 6), rne 53 (j / 6)⟩

/-- A library that cuts each square in two. -/
def evenLib (_ : List Pt) : List Nat := (List.range 6).flatMap fun i => (List.range 6).flatMap fun j =>
  [7 * i + j, 7 * (i + 1) + j, 7 * i + j + 1, 7 * (i + 1) + j, 7 * (i + 1) + j + 1, 7 * i + j + 1]

/-- The triangles. -/
def evenTris : List Tri := (List.range 6).flatMap fun i : Nat => (List.range 6).flatMap fun j : Nat =>
  [⟨⟨2 * i, 2 * j⟩, ⟨2 * i + 2, 2 * j⟩, ⟨2 * i, 2 * j + 2⟩⟩, ⟨⟨2 * i + 2, 2 * j⟩, ⟨2 * i + 2, 2 * j + 2⟩, ⟨2 * i, 2 * j + 2⟩⟩]

/-- The line through `u` and `v` has `t` on one side and `t'` on the other. -/
def cutBy (u v : Pt) (t t' : Tri) : Bool :=
  decide (u ≠ v) && [t.a, t.b, t.c].all (fun p => decide (cross2 u v p ≤ 0)) && [t'.a, t'.b, t'.c].all fun p => decide (0 ≤ cross2 u v p)

theorem cutBy_parted {u v : Pt} {t t' : Tri} (h : cutBy u v t t' = true) : Parted t t' := by
  simp only [cutBy, Bool.and_eq_true, decide_eq_true_eq, List.all_eq_true] at h
  obtain ⟨⟨ne, h1⟩, h2⟩ := h
  have e : ∀ p : Pt, -((v.y : ℚ) - u.y) * p.x + ((v.x : ℚ) - u.x) * p.y + ((v.y - u.y) * u.x - (v.x - u.x) * u.y) = (cross2 u v p : ℚ) := by
    intro p
    unfold cross2
    push_cast
    ring
  refine ⟨-((v.y : ℚ) - u.y), (v.x : ℚ) - u.x, (v.y - u.y) * u.x - (v.x - u.x) * u.y, ?_, fun p hp => ?_, fun p hp => ?_⟩
  · by_contra hn
    push Not at hn
    apply ne
    obtain ⟨n1, n2⟩ := hn
    have e1 : (v.y : ℚ) = u.y := by linarith
    have e2 : (v.x : ℚ) = u.x := by linarith
    cases u
    cases v
    simp only [Pt.mk.injEq] at *
    exact ⟨by exact_mod_cast e2.symm, by exact_mod_cast e1.symm⟩
  · rw [e]
    exact_mod_cast h1 p (by rcases hp with rfl | rfl | rfl <;> simp)
  · rw [e]
    exact_mod_cast h2 p (by rcases hp with rfl | rfl | rfl <;> simp)

theorem evenTris_tiling : Tiling evenPts evenTris where
  nondeg := by
    intro t ht
    have k : ∀ t ∈ evenTris, cross2 t.a t.b t.c ≠ 0 := by decide +kernel
    have := k t ht
    intro h
    apply this
    have e : ((cross2 t.a t.b t.c : Int) : ℚ) = 0 := by
      rw [← h]
      unfold cross2 area2 loc
      push_cast
      ring
    exact_mod_cast e
  vertex := by
    intro t ht v hv
    have k : ∀ t ∈ evenTris, t.a ∈ evenPts ∧ t.b ∈ evenPts ∧ t.c ∈ evenPts := by decide +kernel
    obtain ⟨a, b, c⟩ := k t ht
    rcases hv with rfl | rfl | rfl <;> assumption
  empty := by
    intro t ht v hv
    rintro ⟨o, ho, hlt⟩
    have k : ∀ t ∈ evenTris, 0 < cross2 t.a t.b t.c ∧ ∀ v ∈ evenPts, 0 ≤ incirc t.a t.b t.c v := by decide +kernel
    obtain ⟨k1, k2⟩ := k t ht
    have := incirc_centre (d := v) ho
    have a : (0 : ℚ) ≤ (incirc t.a t.b t.c v : Int) := by exact_mod_cast k2 v hv
    have b : (0 : ℚ) < (cross2 t.a t.b t.c : Int) := by exact_mod_cast k1
    nlinarith
  apart := by
    have k : evenTris.Pairwise fun t t' => ([t.a, t.b, t.c, t'.a, t'.b, t'.c].any fun u => [t.a, t.b, t.c, t'.a, t'.b, t'.c].any fun v => cutBy u v t t') = true := by decide +kernel
    refine k.imp fun {t t'} h => ?_
    simp only [List.any_eq_true] at h
    obtain ⟨u, -, v, -, h⟩ := h
    exact cutBy_parted h
  cover := by
    intro q hq
    have box : hull evenPts ⊆ Set.Icc (0 : ℝ) 12 ×ˢ Set.Icc (0 : ℝ) 12 := by
      refine convexHull_min ?_ ((convex_Icc _ _).prod (convex_Icc _ _))
      rintro _ ⟨p, hp, rfl⟩
      have k : ∀ p ∈ evenPts, 0 ≤ p.x ∧ p.x ≤ 12 ∧ 0 ≤ p.y ∧ p.y ≤ 12 := by decide +kernel
      obtain ⟨a, b, c, d⟩ := k p hp
      simp only [rloc, Set.mem_prod, Set.mem_Icc]
      exact ⟨⟨by exact_mod_cast a, by exact_mod_cast b⟩, by exact_mod_cast c, by exact_mod_cast d⟩
    obtain ⟨⟨m1, m2⟩, m3, m4⟩ := box (interior_subset hq)
    simp only at m1 m2 m3 m4
    have one : ∀ x : ℚ, 0 ≤ x → x ≤ 12 → ∃ i : ℕ, i < 6 ∧ 2 * (i : ℚ) ≤ x ∧ x ≤ 2 * i + 2 := by
      intro x x1 x2
      by_cases h12 : x = 12
      · exact ⟨5, by norm_num, by rw [h12]; norm_num, by rw [h12]; norm_num⟩
      have x2 := lt_of_le_of_ne x2 h12
      refine ⟨⌊x / 2⌋₊, ?_, ?_, ?_⟩
      · rw [Nat.floor_lt (by linarith)]
        push_cast
        linarith
      · have := Nat.floor_le (show 0 ≤ x / 2 by linarith)
        linarith
      · have := Nat.lt_floor_add_one (x / 2)
        linarith
    obtain ⟨i, hi, i1, i2⟩ := one q.x (by exact_mod_cast m1) (by exact_mod_cast m2)
    obtain ⟨j, hj, j1, j2⟩ := one q.y (by exact_mod_cast m3) (by exact_mod_cast m4)
    by_cases hs : q.x + q.y ≤ 2 * i + 2 * j + 2
    · refine ⟨⟨⟨2 * i, 2 * j⟩, ⟨2 * i + 2, 2 * j⟩, ⟨2 * i, 2 * j + 2⟩⟩, ?_, Or.inl ⟨?_, ?_, ?_⟩⟩
      · simp only [evenTris, List.mem_flatMap, List.mem_range]
        exact ⟨i, hi, j, hj, by simp⟩
      all_goals
        unfold area2
        push_cast
        nlinarith
    · refine ⟨⟨⟨2 * i + 2, 2 * j⟩, ⟨2 * i + 2, 2 * j + 2⟩, ⟨2 * i, 2 * j + 2⟩⟩, ?_, Or.inl ⟨?_, ?_, ?_⟩⟩
      · simp only [evenTris, List.mem_flatMap, List.mem_range]
        exact ⟨i, hi, j, hj, by simp⟩
      all_goals
        unfold area2
        push_cast
        nlinarith

theorem evenPoints_pix : evenPoints.map (groupPoint (rne 53) 12 12) = evenPts := by decide +kernel

theorem evenPoints_unit : ∀ p ∈ evenPoints, Alg.Unit01 p := by unfold Alg.Unit01; decide +kernel

theorem even_triangulate : triangulate evenLib (rne 53) 12 12 evenPoints = some evenTris := by decide +kernel

/-- The assumptions of `c98_tiling_partial` hold. -/
example : (evenTris.map area).sum ≤ (12 : ℕ) * (12 : ℕ) ∧ ∀ fl', Rnd 53 fl' → ∀ z, (evenTris.flatMap (DDATriangle fl' z)).Nodup ∧ ∀ q ∈ evenTris.flatMap (DDATriangle fl' z), IsPixel 12 12 q :=
  c98_tiling_partial (rne_rnd (by norm_num)) (by norm_num) (by norm_num) evenPoints_unit even_triangulate (by rw [evenPoints_pix]; exact evenTris_tiling)

/-- The assumptions of `c105_exported_partial` hold: the picture has a quality of more than 24/100. -/
example : ∃ T out cs, triangulate evenLib (rne 53) 12 12 evenPoints = some T ∧ trianglesOnImage (rne 53) 0 (ofBytes (rne 53) 12 12 shades) T = some out ∧ out.map Prod.snd = cs.map some ∧
    24 / 100 ≤ quality 0 (ofBytes (rne 53) 12 12 shades) T cs := by
  obtain ⟨out, cs, h1, h2, h3⟩ := c105_exported_partial (w := 12) (h := 12) (by norm_num) (by norm_num) (by norm_num) (by norm_num) (by norm_num) evenPoints_unit even_triangulate
    (by rw [evenPoints_pix]; exact evenTris_tiling) (r := 3 / 2) (η := 1 / 600) (by norm_num) (by norm_num) (by rw [evenPoints_pix]; simpa using even_net) 0 shades (shades_gentle _)
  exact ⟨_, out, cs, even_triangulate, h1, h2, le_trans (by norm_num) h3⟩

/-! ### Case: `DefaultAlgorithm` -/

/-- Four points not on a circle. -/
def offCircle : List Pt → Bool
  | [a, b, c, d] => decide (incirc a b c d ≠ 0)
  | _ => true

/-- General position, checked once for four points. -/
theorem general_sub {W : Pt → Prop} {l : List Pt} (hW : ∀ p, W p → p ∈ l) (nd : l.Nodup) (h : (l.sublistsLen 4).all offCircle = true) : GeneralPosition W := by
  intro a b c d ha hb hc hd hex hn
  obtain ⟨n1, n2, n3⟩ := nondeg_ne hn
  by_contra hne
  push Not at hne
  obtain ⟨m1, m2, m3⟩ := hne
  have nd4 : [a, b, c, d].Nodup := by
    simp only [ne_eq] at n1 n2 n3 m1 m2 m3
    simp only [List.nodup_cons, List.mem_cons, List.not_mem_nil, or_false, not_or, List.nodup_nil, and_true, not_false_eq_true]
    exact ⟨⟨n1, n3, fun e => m1 e.symm⟩, ⟨n2, fun e => m2 e.symm⟩, fun e => m3 e.symm⟩
  have P : (l.filter (· ∈ [a, b, c, d])).Perm [a, b, c, d] := by
    rw [List.perm_ext_iff_of_nodup (nd.filter _) nd4]
    intro p
    simp only [List.mem_filter, decide_eq_true_eq, and_iff_right_iff_imp]
    intro hp
    simp only [List.mem_cons, List.not_mem_nil, or_false] at hp
    rcases hp with rfl | rfl | rfl | rfl
    exacts [hW _ ha, hW _ hb, hW _ hc, hW _ hd]
  have hs := List.all_eq_true.mp h _ (List.mem_sublistsLen.mpr ⟨List.filter_sublist, P.length_eq⟩)
  have mem : ∀ p ∈ l.filter (· ∈ [a, b, c, d]), p = a ∨ p = b ∨ p = c ∨ p = d := fun p hp => by simpa using P.mem_iff.mp hp
  obtain ⟨o, ⟨e1, e2⟩, e3⟩ := hex
  have circ : ∀ p ∈ l.filter (· ∈ [a, b, c, d]), d2 o p = d2 o a := by
    intro p hp
    rcases mem p hp with rfl | rfl | rfl | rfl
    exacts [rfl, e1.symm, e2.symm, e3]
  obtain ⟨p, q, r, s, e⟩ : ∃ p q r s, l.filter (· ∈ [a, b, c, d]) = [p, q, r, s] := by
    have := P.length_eq
    match l.filter (· ∈ [a, b, c, d]), this with
    | [p, q, r, s], _ => exact ⟨p, q, r, s, rfl⟩
  rw [e] at hs circ
  simp only [offCircle, decide_eq_true_eq] at hs
  exact hs (incirc_zero ⟨o, ⟨by rw [circ p (by simp), circ q (by simp)], by rw [circ p (by simp), circ r (by simp)]⟩, by rw [circ p (by simp), circ s (by simp)]⟩)

/-- Fifteen pixels of an image of 192 by 128; no four of them and of the vertices of the bounding triangle are on a circle. -/
def loosePix : List Pt := [⟨20, 22⟩, ⟨19, 64⟩, ⟨18, 106⟩, ⟨59, 21⟩, ⟨58, 63⟩, ⟨56, 105⟩, ⟨97, 20⟩, ⟨97, 64⟩, ⟨97, 106⟩, ⟨133, 22⟩, ⟨135, 64⟩, ⟨135, 107⟩, ⟨171, 20⟩, ⟨174, 65⟩, ⟨174, 107⟩]

/-- The points, as floats. -/
def loosePoints : List NP := loosePix.map fun p => ⟨rne 53 (p.x / 192), rne 53 (p.y / 128)⟩

/-- A source that repeats their coordinates. -/
def loose : Source (Fin 30) where
  float32 n := (7 / 8, n)
  norm n := (0, n)
  float64 n := ((loosePoints.flatMap fun p => [p.x, p.y]).getD n 0, n + 1)
  intn _ n := (0, n)

/-- A grey image. -/
def looseImage : Source16 := ⟨192, 128, fun _ _ => (40000, 40000, 40000)⟩

theorem loose_setting : DefaultOK loose looseImage 15 someSorter := by
  have k : ∀ n : Fin 30, 0 ≤ (loose.float64 n).1 ∧ (loose.float64 n).1 < 1 := by decide +kernel
  exact ⟨⟨k, fun n s h => h⟩, fun _ _ => ⟨by simp [looseImage], by simp [looseImage], by simp [looseImage]⟩, by decide, by decide, by decide, by norm_num, someSorter_ok⟩

theorem loose_gentle (ℓ : ℚ) : Gentle (theImage looseImage) ℓ 0 := by
  intro x y x' y' a b c d _
  change x < 192 at a
  change y < 128 at b
  change x' < 192 at c
  change y' < 128 at d
  have k : ∀ x y, x < 192 → y < 128 → upperBytes looseImage x y = (Fin.ofNat 256 156, Fin.ofNat 256 156, Fin.ofNat 256 156) := by
    intro x y hx hy
    unfold upperBytes
    rw [if_pos ⟨by simp only [looseImage]; omega, by simp only [looseImage]; omega⟩]
    norm_num [looseImage]
  unfold rgbDist theImage ofBytes
  simp only [k x y a b, k x' y' c d]
  norm_num

theorem loose_pix : pix (rne 53) (theImage looseImage) loosePoints = loosePix := by
  change (loosePoints.map fun p => createPoint (rne 53) p 192 128) = loosePix
  decide +kernel

theorem loose_off : ∀ p ∈ loosePoints, rne 53 (p.x * 192) ≠ 1 / 2 - 1 / 2 ^ 54 ∧ rne 53 (p.y * 128) ≠ 1 / 2 - 1 / 2 ^ 54 := by decide +kernel

/-- The points and the vertices of the bounding triangle. -/
def looseAll : List Pt := loosePix ++ [⟨-288, -128⟩, ⟨96, 448⟩, ⟨480, -128⟩]

theorem loose_general : (looseAll.sublistsLen 4).all offCircle = true := by decide +kernel

theorem loose_regular : Regular (theImage looseImage) loosePoints := by
  have e1 : newSuperTriangle 192 128 = ⟨⟨-288, -128⟩, ⟨96, 448⟩, ⟨480, -128⟩⟩ := by decide +kernel
  refine ⟨?_, general_sub (l := looseAll) ?_ (by decide +kernel) loose_general⟩
  · exact loose_off
  · rintro p (h | h)
    · rw [loose_pix] at h
      exact List.mem_append_left _ h
    · change IsVertex (newSuperTriangle 192 128) p at h
      rw [e1] at h
      refine List.mem_append_right _ ?_
      rcases h with rfl | rfl | rfl <;> simp

theorem loose_draw (m : Nat) : (∀ p ∈ (draw loose 15 m 0).1, p = loosePoints) ∧ (draw loose 15 m 0).2 = 0 := by
  have r : randomPoints loose 15 0 = (loosePoints, 0) := by decide +kernel
  induction m with
  | zero => simp [draw]
  | succ m ih =>
    obtain ⟨h1, h2⟩ := ih
    rw [draw]
    simp only [h2, show (15 : Int).toNat = 15 from rfl, r]
    refine ⟨fun p hp => ?_, trivial⟩
    rcases List.mem_append.mp hp with hp | hp
    · exact h1 p hp
    · simpa using hp

theorem loose_net (x y : ℝ) (x1 : 0 ≤ x) (x2 : x ≤ (looseImage.maxX.toNat : ℕ)) (y1 : 0 ≤ y) (y2 : y ≤ (looseImage.maxY.toNat : ℕ)) :
    ∃ p ∈ pix (rne 53) (theImage looseImage) loosePoints, ((p.x : ℝ) - x) ^ 2 + (p.y - y) ^ 2 ≤ ((63 / 2 : ℚ) : ℝ) ^ 2 := by
  rw [loose_pix]
  change x ≤ ((192 : ℕ) : ℝ) at x2
  change y ≤ ((128 : ℕ) : ℝ) at y2
  push_cast at x2 y2
  have cell : ∀ (n : ℕ) (s z : ℝ), 0 < s → 1 ≤ n → 0 ≤ z → z ≤ n * s → ∃ i : ℕ, i < n ∧ i * s ≤ z ∧ z ≤ i * s + s := by
    intro n s z hs hn z1 z2
    by_cases hz : z = n * s
    · refine ⟨n - 1, by omega, ?_, ?_⟩ <;> (push_cast [hn]; linarith)
    · have lt : z / s < n := by rw [div_lt_iff₀ hs]; exact lt_of_le_of_ne z2 hz
      refine ⟨⌊z / s⌋₊, (Nat.floor_lt (by positivity)).mpr lt, ?_, ?_⟩
      · exact (le_div_iff₀ hs).mp (Nat.floor_le (by positivity))
      · have := (div_lt_iff₀ hs).mp (Nat.lt_floor_add_one (z / s))
        linarith
  obtain ⟨i, hi, i1, i2⟩ := cell 5 (192 / 5) x (by norm_num) (by norm_num) x1 (by norm_num; exact x2)
  obtain ⟨j, hj, j1, j2⟩ := cell 3 (128 / 3) y (by norm_num) (by norm_num) y1 (by norm_num; exact y2)
  have k : ∀ i < 5, ∀ j < 3, ∃ p ∈ loosePix, (5 * p.x ≤ 192 * (i : Nat) + 105 ∧ 192 * (i : Nat) + 87 ≤ 5 * p.x) ∧ 3 * p.y ≤ 128 * (j : Nat) + 69 ∧ 128 * (j : Nat) + 59 ≤ 3 * p.y := by decide +kernel
  obtain ⟨p, hp, ⟨a1, a2⟩, b1, b2⟩ := k i hi j hj
  refine ⟨p, hp, ?_⟩
  have a1 : 5 * (p.x : ℝ) ≤ 192 * i + 105 := by exact_mod_cast a1
  have a2 : 192 * (i : ℝ) + 87 ≤ 5 * p.x := by exact_mod_cast a2
  have b1 : 3 * (p.y : ℝ) ≤ 128 * j + 69 := by exact_mod_cast b1
  have b2 : 128 * (j : ℝ) + 59 ≤ 3 * p.y := by exact_mod_cast b2
  have c1 : |(p.x : ℝ) - x| ≤ 21 := abs_le.mpr ⟨by linarith, by linarith⟩
  have c2 : |(p.y : ℝ) - y| ≤ 23 := abs_le.mpr ⟨by linarith, by linarith⟩
  have d1 := sq_le_sq' (abs_le.mp c1).1 (abs_le.mp c1).2
  have d2 := sq_le_sq' (abs_le.mp c2).1 (abs_le.mp c2).2
  push_cast
  linarith

/-- The assumptions of `c105_default_partial` hold: the exported picture has a quality of more than 5/1000. -/
example : ∃ a s T out cs, DefaultExec ieee someSorter 0 (fun _ _ => ⟨[], [], fun _ _ => [], fun _ => []⟩) loose looseImage 15 0 0 a s ∧
    triangulate onceLib (rne 53) 192 128 a.best = some T ∧ trianglesOnImage (rne 53) 0 (theImage looseImage) T = some out ∧ out.map Prod.snd = cs.map some ∧
    5 / 1000 ≤ quality 0 (theImage looseImage) T cs := by
  obtain ⟨l, a, s, h⟩ := (c78_new_partial (z := 0) (bf := fun _ _ => ⟨[], [], fun _ _ => [], fun _ => []⟩) loose_setting 0).mpr (by decide)
  have E := DefaultExec.new h
  obtain ⟨gs, e, P⟩ := c101_default_new_partial loose_setting h
  have all : ∀ p ∈ a.pop, p = loosePoints := fun p hp => (loose_draw 400).1 p (by rw [e]; exact P.mem_iff.mp hp)
  have mem : loosePoints ∈ a.pop := by
    have m := draw_first loose 15 399 0
    have : (randomPoints loose (15 : Int).toNat 0).1 = loosePoints := (loose_draw 400).1 _ m
    rw [this, e] at m
    exact P.mem_iff.mpr m
  have best : a.best = loosePoints := by
    obtain ⟨I, P, -, -, ⟨a1, q, e1, -, -, e2⟩, -⟩ := h
    simp only [simpleInit, Option.bind_eq_bind, Option.bind_eq_some_iff, Option.some.injEq] at e1
    obtain ⟨b, -, rfl⟩ := e1
    have d := (loose_draw 400).1
    generalize draw loose 15 400 0 = g at d e2
    exact (everyone_sort (P := (· = loosePoints)) ⟨d, d⟩ e2).2
  obtain ⟨T, out, cs, h1, h2, h3, h4⟩ := c105_default_partial onceLib_ok loose_setting E (by rw [best]; exact loose_regular) (ρ := 63 / 2) (η := 0) (by decide) (by norm_num)
    (by change 18 * (63 / 2) < 3 * (side 192 128 : ℚ) - 1; unfold side; norm_num) (by change 4 * (63 / 2) ≤ ((192 : ℕ) : ℚ); norm_num) (loose_gentle _) mem loose_net
  refine ⟨a, s, T, out, cs, E, h1, h2, h3, le_trans ?_ h4⟩
  change (5 : ℚ) / 1000 ≤ (1 - 4 * (63 / 2) / (192 : ℕ)) * (1 - 4 * (63 / 2) / (128 : ℕ)) - 0 - 1 / 40000
  norm_num

end Verif.Props

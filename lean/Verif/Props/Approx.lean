import Verif.Props.Surround
import Verif.Props.ExportHull
import Verif.Props.Generation

/-! # C103: dense points approximate the image -/

namespace Verif.Props

open Verif.Tri Verif.Spec Verif.Float Verif.Raster Verif.Fit Verif.Small Verif.Alg
open Verif.Incr hiding trunc step run Entry
open MeasureTheory

/-- Pixels at most `ℓ` apart have similar colours: the mean squared difference of the channels is at most `η`. -/
def Gentle (I : Img) (ℓ η : ℚ) : Prop :=
  ∀ x y x' y' : Nat, x < I.w → y < I.h → x' < I.w → y' < I.h → ((x : ℚ) - x') ^ 2 + ((y : ℚ) - y') ^ 2 ≤ ℓ ^ 2 → rgbDist (I.px x y) (I.px x' y') ≤ 3 * η

/-! ### Areas of triangles that cover a rectangle -/

/-- The closed triangle in the real plane. -/
def shutTri (t : Tri) : Set (ℝ × ℝ) :=
  {q | 0 ≤ rarea t.a t.b (rloc t.c) * rarea t.a t.b q ∧ 0 ≤ rarea t.a t.b (rloc t.c) * rarea t.b t.c q ∧ 0 ≤ rarea t.a t.b (rloc t.c) * rarea t.c t.a q}

theorem shutTri_closed (t : Tri) : IsClosed (shutTri t) := by
  have c : ∀ a b : Pt, Continuous fun q : ℝ × ℝ => rarea t.a t.b (rloc t.c) * rarea a b q := by
    intro a b
    unfold rarea
    fun_prop
  exact (isClosed_le continuous_const (c _ _)).inter ((isClosed_le continuous_const (c _ _)).inter (isClosed_le continuous_const (c _ _)))

theorem shutTri_volume {t : Tri} (nd : NonDegenerate t) : volume (shutTri t) ≤ ENNReal.ofReal ((area t : ℚ) : ℝ) := by
  have hD : rarea t.a t.b (rloc t.c) ≠ 0 := by
    rw [rloc, rarea_cast]
    exact_mod_cast nd
  have ne1 : t.a ≠ t.b := fun h => nd (by rw [h]; unfold area2 loc; ring)
  have ne2 : t.b ≠ t.c := fun h => nd (by rw [h]; unfold area2 loc; ring)
  have ne3 : t.c ≠ t.a := fun h => nd (by rw [h]; unfold area2 loc; ring)
  rw [← area_volume]
  refine measure_mono_ae ?_
  have n1 : ∀ᵐ q ∂(volume : Measure (ℝ × ℝ)), rarea t.a t.b q ≠ 0 := measure_eq_zero_iff_ae_notMem.mp (line_null ne1)
  have n2 : ∀ᵐ q ∂(volume : Measure (ℝ × ℝ)), rarea t.b t.c q ≠ 0 := measure_eq_zero_iff_ae_notMem.mp (line_null ne2)
  have n3 : ∀ᵐ q ∂(volume : Measure (ℝ × ℝ)), rarea t.c t.a q ≠ 0 := measure_eq_zero_iff_ae_notMem.mp (line_null ne3)
  filter_upwards [n1, n2, n3] with q h1 h2 h3 hq
  exact ⟨lt_of_le_of_ne hq.1 (mul_ne_zero hD h1).symm, lt_of_le_of_ne hq.2.1 (mul_ne_zero hD h2).symm, lt_of_le_of_ne hq.2.2 (mul_ne_zero hD h3).symm⟩

theorem rarea_rat (a b : Pt) (q : P2) : rarea a b ((q.x : ℝ), (q.y : ℝ)) = ((area2 a b q : ℚ) : ℝ) := by
  unfold rarea area2
  push_cast
  ring

theorem owns_shut {t : Tri} {q : P2} (h : Owns t q) : ((q.x : ℝ), (q.y : ℝ)) ∈ shutTri t := by
  obtain ⟨e0, h0, hI⟩ := h
  have sum : ∀ p : P2, area2 t.a t.b p + area2 t.b t.c p + area2 t.c t.a p = area2 t.a t.b (loc t.c) := fun p => by unfold area2 loc; ring
  have pos : ∀ p : P2, Interior t p → 0 < area2 t.a t.b (loc t.c) * area2 t.a t.b p ∧ 0 < area2 t.a t.b (loc t.c) * area2 t.b t.c p ∧
      0 < area2 t.a t.b (loc t.c) * area2 t.c t.a p := by
    intro p hp
    have := sum p
    rcases hp with ⟨k1, k2, k3⟩ | ⟨k1, k2, k3⟩
    · have : 0 < area2 t.a t.b (loc t.c) := by linarith
      exact ⟨mul_pos this k1, mul_pos this k2, mul_pos this k3⟩
    · have : area2 t.a t.b (loc t.c) < 0 := by linarith
      exact ⟨mul_pos_of_neg_of_neg this k1, mul_pos_of_neg_of_neg this k2, mul_pos_of_neg_of_neg this k3⟩
  have lim : ∀ (u v : Pt) (D : ℚ), (∀ e : ℚ, 0 < e → e ≤ e0 → 0 < D * area2 u v ⟨q.x - e, q.y + e ^ 2⟩) → 0 ≤ D * area2 u v q := by
    intro u v D hp
    refine limit_nonneg (B := D * (v.y - u.y)) (C := D * (v.x - u.x)) h0 fun e h1 h2 => ?_
    have := hp e h1 h2
    unfold area2 at this ⊢
    simp only at this
    linarith
  have fin : ∀ u v : Pt, 0 ≤ area2 t.a t.b (loc t.c) * area2 u v q → 0 ≤ rarea t.a t.b (rloc t.c) * rarea u v ((q.x : ℝ), (q.y : ℝ)) := by
    intro u v hp
    rw [rarea_rat, rloc, rarea_cast]
    exact_mod_cast hp
  exact ⟨fin _ _ (lim _ _ _ fun e h1 h2 => (pos _ (hI e h1 h2)).1), fin _ _ (lim _ _ _ fun e h1 h2 => (pos _ (hI e h1 h2)).2.1),
    fin _ _ (lim _ _ _ fun e h1 h2 => (pos _ (hI e h1 h2)).2.2)⟩

theorem area_nonneg (t : Tri) : 0 ≤ area t := by unfold Props.area; positivity

theorem shut_list : ∀ T : List Tri, (∀ t ∈ T, NonDegenerate t) → volume (⋃ t ∈ T, shutTri t) ≤ ENNReal.ofReal (((T.map area).sum : ℚ) : ℝ)
  | [], _ => by simp
  | t :: T, nd => by
    have e : (⋃ t' ∈ t :: T, shutTri t') = shutTri t ∪ ⋃ t' ∈ T, shutTri t' := by
      ext q
      simp
    have h2 : 0 ≤ (T.map area).sum := List.sum_nonneg fun a ha => by
      obtain ⟨t, -, rfl⟩ := List.mem_map.mp ha
      exact area_nonneg t
    rw [e, List.map_cons, List.sum_cons, Rat.cast_add, ENNReal.ofReal_add (by exact_mod_cast area_nonneg t) (by exact_mod_cast h2)]
    exact (measure_union_le _ _).trans (add_le_add (shutTri_volume (nd t (by simp))) (shut_list T fun t' h => nd t' (by simp [h])))

/-- Closed triangles that contain all rational locations of a rectangle have at least its area together. -/
theorem cover_area_shut {T : List Tri} (nd : ∀ t ∈ T, NonDegenerate t) {a b c d : ℚ} (hab : a ≤ b)
    (cover : ∀ q : P2, a < q.x → q.x < b → c < q.y → q.y < d → ∃ t ∈ T, ((q.x : ℝ), (q.y : ℝ)) ∈ shutTri t) : (b - a) * (d - c) ≤ (T.map area).sum := by
  have hs : 0 ≤ (T.map area).sum := List.sum_nonneg fun a ha => by
    obtain ⟨t, -, rfl⟩ := List.mem_map.mp ha
    exact area_nonneg t
  have cl : IsClosed (⋃ t ∈ T, shutTri t) := by
    have : (⋃ t ∈ T, shutTri t) = ⋃ t ∈ {t | t ∈ T}, shutTri t := rfl
    rw [this]
    exact (List.finite_toSet T).isClosed_biUnion fun t _ => shutTri_closed t
  have dn : Dense (Set.range (Prod.map ((↑) : ℚ → ℝ) ((↑) : ℚ → ℝ))) := (Rat.denseRange_cast (𝕜 := ℝ)).prodMap (Rat.denseRange_cast (𝕜 := ℝ))
  have sub : Set.Ioo (a : ℝ) b ×ˢ Set.Ioo (c : ℝ) d ⊆ ⋃ t ∈ T, shutTri t := by
    refine (dn.open_subset_closure_inter (isOpen_Ioo.prod isOpen_Ioo)).trans (closure_minimal ?_ cl)
    rintro _ ⟨⟨⟨h1, h2⟩, h3, h4⟩, ⟨⟨x, y⟩, rfl⟩⟩
    simp only [Prod.map_apply] at h1 h2 h3 h4
    obtain ⟨t, ht, ho⟩ := cover ⟨x, y⟩ (by exact_mod_cast h1) (by exact_mod_cast h2) (by exact_mod_cast h3) (by exact_mod_cast h4)
    exact Set.mem_iUnion₂.mpr ⟨t, ht, ho⟩
  have v := (measure_mono (μ := volume) sub).trans (shut_list T nd)
  rw [Measure.volume_eq_prod, Measure.prod_prod, Real.volume_Ioo, Real.volume_Ioo, ← ENNReal.ofReal_mul (by
    have : (a : ℝ) ≤ b := by exact_mod_cast hab
    linarith), ENNReal.ofReal_le_ofReal_iff (by exact_mod_cast hs)] at v
  exact_mod_cast v

/-- Triangles that own all rational locations of a rectangle have at least its area together. -/
theorem cover_area {T : List Tri} (nd : ∀ t ∈ T, NonDegenerate t) {a b c d : ℚ} (hab : a ≤ b)
    (cover : ∀ q : P2, a < q.x → q.x < b → c < q.y → q.y < d → ∃ t ∈ T, Owns t q) : (b - a) * (d - c) ≤ (T.map area).sum :=
  cover_area_shut nd hab fun q h1 h2 h3 h4 => (cover q h1 h2 h3 h4).imp fun _ h => ⟨h.1, owns_shut h.2⟩

/-! ### Circles near surrounded locations are small -/

variable {g : Geo} {fs : ℚ → ℚ} {w h : Nat} {ops : List Op} {s : Multiset Pt} {m : Nat} {d : D}

/-- A disc without stored points that contains a surrounded location has a radius of at most `B`. -/
theorem small_disc {q : P2} {ρ δ B : ℚ} (S : Surrounded s q ρ δ) (hδ : 0 < δ) (hρ : 0 ≤ ρ) (h1 : ρ ≤ B) (h2 : ρ ^ 2 ≤ 2 * δ * B) {o : P2} {R : ℚ}
    (hq : (o.x - q.x) ^ 2 + (o.y - q.y) ^ 2 ≤ R) (emp : ∀ p ∈ s, R ≤ d2 o p) : R ≤ B ^ 2 := by
  obtain ⟨p, hp, l1, l2, l3⟩ := S (o.x - q.x) (o.y - q.y)
  have e0 := emp p hp
  unfold d2 at e0
  have key : ∀ ox oy qx qy px py R ρ δ B : ℝ, 0 < δ → 0 ≤ ρ → ρ ≤ B → ρ ^ 2 ≤ 2 * δ * B → (ox - qx) ^ 2 + (oy - qy) ^ 2 ≤ R → (px - qx) ^ 2 + (py - qy) ^ 2 ≤ ρ ^ 2 →
      0 ≤ (ox - qx) * (px - qx) + (oy - qy) * (py - qy) →
      δ ^ 2 * ((ox - qx) ^ 2 + (oy - qy) ^ 2) ≤ ((ox - qx) * (px - qx) + (oy - qy) * (py - qy)) ^ 2 → R ≤ (ox - px) ^ 2 + (oy - py) ^ 2 → R ≤ B ^ 2 := by
    intro ox oy qx qy px py R ρ δ B hδ hρ h1 h2 hq l1 l2 l3 e0
    obtain ⟨a, ha, ea⟩ : ∃ a : ℝ, 0 ≤ a ∧ a ^ 2 = (ox - qx) ^ 2 + (oy - qy) ^ 2 := ⟨_, Real.sqrt_nonneg _, Real.sq_sqrt (by positivity)⟩
    have hP : δ * a ≤ (ox - qx) * (px - qx) + (oy - qy) * (py - qy) := by
      refine (abs_le_of_sq_le_sq' ?_ l2).2
      rw [mul_pow, ea]; exact l3
    have e1 : R ≤ a ^ 2 - 2 * (δ * a) + ρ ^ 2 := by
      have c6 : (ox - px) ^ 2 + (oy - py) ^ 2 =
          ((ox - qx) ^ 2 + (oy - qy) ^ 2) - 2 * ((ox - qx) * (px - qx) + (oy - qy) * (py - qy)) + ((px - qx) ^ 2 + (py - qy) ^ 2) := by ring
      linarith
    have haB : a ≤ B := by
      have : δ * a ≤ δ * B := by nlinarith
      exact le_of_mul_le_mul_left this hδ
    have hB : 0 ≤ B := hρ.trans h1
    have f1 : ρ ^ 2 ≤ B ^ 2 := pow_le_pow_left₀ hρ h1 2
    rcases le_total a (2 * δ) with hc | hc
    · nlinarith [mul_nonneg ha (sub_nonneg.mpr hc)]
    · nlinarith [mul_le_mul_of_nonneg_right haB (sub_nonneg.mpr hc)]
  have := key o.x o.y q.x q.y (p.x : ℚ) (p.y : ℚ) R ρ δ B (by exact_mod_cast hδ) (by exact_mod_cast hρ) (by exact_mod_cast h1) (by exact_mod_cast h2)
    (by exact_mod_cast hq) (by exact_mod_cast l1) (by exact_mod_cast l2) (by exact_mod_cast l3) (by exact_mod_cast e0)
  exact_mod_cast this

/-- A triangle whose circle has a radius of at most `B`. -/
def SmallCircle (B : ℚ) (t : Tri) : Prop := ∃ o, Centre t o ∧ d2 o t.a ≤ B ^ 2

theorem closed_disc {t : Tri} (nd : NonDegenerate t) {o : P2} (ho : Centre t o) {q : P2} (hq : Closed t q) : (o.x - q.x) ^ 2 + (o.y - q.y) ^ 2 ≤ d2 o t.a := by
  obtain ⟨c1, c2, c3⟩ := closed_norm_nonneg nd hq
  have hp := ((norm t).pow_closed ((nondeg_iff t).mp nd) _ c1 c2 c3).1
  rw [pow_centre nd ho] at hp
  linarith

theorem SmallCircle.near {B : ℚ} {t : Tri} (S : SmallCircle B t) (nd : NonDegenerate t) {p q : P2} (hp : Closed t p) (hq : Closed t q) :
    (p.x - q.x) ^ 2 + (p.y - q.y) ^ 2 ≤ (2 * B) ^ 2 := by
  obtain ⟨o, ho, hR⟩ := S
  have h1 := closed_disc nd ho hp
  have h2 := closed_disc nd ho hq
  nlinarith [sq_nonneg (2 * o.x - p.x - q.x), sq_nonneg (2 * o.y - p.y - q.y)]

/-! ### The fitness -/

section
open Classical

/-- The fitness is at least the share of the image that triangles with small circles cover, minus what the colours vary over their diameters. -/
theorem fitness_small {T : List Tri} (z : ℚ) (f : Nat → Nat → Fin 256 × Fin 256 × Fin 256) {bs : Nat} (hb : 1 ≤ bs) (hb' : bs ≤ 16)
    (hw1 : 1 ≤ w) (hh1 : 1 ≤ h) (hw : w ≤ 32767) (hh : h ≤ 32767) (hwh : w * h ≤ 6800000) (M : Mesh w h T) {B η : ℚ}
    (G : Gentle (ofBytes (rne 53) w h f) (2 * B) η) :
    ∃ v, evalTris (rne 53) z (ofBytes (rne 53) w h f) bs T = some v ∧
      ((T.filter fun t => decide (SmallCircle B t)).map area).sum / (w * h) - η - 1 / 100000 ≤ v := by
  have R : Rnd 53 (rne 53) := rne_rnd (by norm_num)
  set I := ofBytes (rne 53) w h f with hI
  have hη : 0 ≤ η := by
    have := G 0 0 0 0 hw1 hh1 hw1 hh1 (by simp; positivity)
    have e : rgbDist (I.px 0 0) (I.px 0 0) = 0 := by unfold rgbDist; ring
    linarith
  have hw0 : (0 : ℚ) < w := by exact_mod_cast hw1
  have hh0 : (0 : ℚ) < h := by exact_mod_cast hh1
  have hP : (0 : ℚ) < w * h := by positivity
  obtain ⟨out, cs, v, -, -, ev, -, best⟩ := c87_ieee z f hb hb' hw1 hh1 hw hh hwh M
  refine ⟨v, ev, ?_⟩
  -- the colours: that of a pixel for small triangles, grey for others
  let col : Tri → RGB := fun t => if SmallCircle B t then
    (match DDATriangle (rne 53) z t with | [] => ⟨0, 0, 0⟩ | q :: _ => I.px q.1.toNat q.2.toNat) else ⟨1 / 2, 1 / 2, 1 / 2⟩
  have hb1 := best (T.map col) (by simp)
  rw [picture_mesh z R hw hh M (I := I) rfl rfl (cov := fun t q => q ∈ DDATriangle (rne 53) z t) (fun t _ q _ => Iff.rfl) (cs := T.map col) (by simp), zip_self,
    List.map_map] at hb1
  simp only [Function.comp_def] at hb1
  have hlen := length_visits R z hw hh M
  -- one triangle
  have one : ∀ t ∈ T, ((DDATriangle (rne 53) z t).map fun q => rgbDist (I.px q.1.toNat q.2.toNat) (col t)).sum ≤
      3 * η * (DDATriangle (rne 53) z t).length + 3 * if SmallCircle B t then 0 else area t := by
    intro t ht
    have img := M.img t ht
    have nd := M.nondeg t ht
    have i16 : ∀ v ∈ vlist t, Int16 v ∧ 0 ≤ v.x ∧ 0 ≤ v.y := by
      intro v hv
      have := img v hv
      unfold Int16
      omega
    have bnd := (c29_bounds R z (by omega) (by omega) t img (bs := 1) le_rfl).2.2
    by_cases hs : SmallCircle B t
    · rw [if_pos hs, mul_zero, add_zero]
      have hcol : ∀ q ∈ DDATriangle (rne 53) z t, rgbDist (I.px q.1.toNat q.2.toNat) (col t) ≤ 3 * η := by
        intro q hq
        simp only [col, if_pos hs]
        generalize hL : DDATriangle (rne 53) z t = L at hq
        cases L with
        | nil => cases hq
        | cons p L =>
          have hp : p ∈ DDATriangle (rne 53) z t := by rw [hL]; exact List.mem_cons_self
          rw [← hL] at hq
          obtain ⟨a1, a2, a3, a4⟩ := bnd p hp
          obtain ⟨b1, b2, b3, b4⟩ := bnd q hq
          have near := hs.near nd ((c62_rounded R z nd i16 q.1 q.2).2 hq) ((c62_rounded R z nd i16 p.1 p.2).2 hp)
          refine G _ _ _ _ (show q.1.toNat < w by omega) (show q.2.toNat < h by omega) (show p.1.toNat < w by omega) (show p.2.toNat < h by omega) ?_
          have e : ∀ n : Int, 0 ≤ n → ((n.toNat : ℕ) : ℚ) = n := fun n hn => by exact_mod_cast Int.toNat_of_nonneg hn
          rw [e _ a1, e _ a3, e _ b1, e _ b3]
          simp only at near
          linarith
      have := List.sum_le_card_nsmul ((DDATriangle (rne 53) z t).map fun q => rgbDist (I.px q.1.toNat q.2.toNat) (col t)) (3 * η) (by
        intro x hx
        obtain ⟨q, hq, rfl⟩ := List.mem_map.mp hx
        exact hcol q hq)
      rw [List.length_map, nsmul_eq_mul] at this
      linarith
    · rw [if_neg hs]
      have hcol : ∀ q ∈ DDATriangle (rne 53) z t, rgbDist (I.px q.1.toNat q.2.toNat) (col t) ≤ 3 / 4 := by
        intro q hq
        simp only [col, if_neg hs]
        have k : ∀ k : Fin 256, (convertColor (rne 53) k - 1 / 2) ^ 2 ≤ 1 / 4 := fun k => by
          obtain ⟨h1, h2⟩ := convert_range R k
          nlinarith
        have e1 := k (f q.1.toNat q.2.toNat).1
        have e2 := k (f q.1.toNat q.2.toNat).2.1
        have e3 := k (f q.1.toNat q.2.toNat).2.2
        rw [hI]
        unfold rgbDist ofBytes
        simp only
        linarith
      have := List.sum_le_card_nsmul ((DDATriangle (rne 53) z t).map fun q => rgbDist (I.px q.1.toNat q.2.toNat) (col t)) (3 / 4) (by
        intro x hx
        obtain ⟨q, hq, rfl⟩ := List.mem_map.mp hx
        exact hcol q hq)
      rw [List.length_map, nsmul_eq_mul] at this
      have c := c65_pixels R z nd i16
      have n0 : (0 : ℚ) ≤ (DDATriangle (rne 53) z t).length := by positivity
      have := mul_nonneg hη n0
      have := area_nonneg t
      linarith
  have all : ∀ U : List Tri, (∀ t ∈ U, t ∈ T) →
      (U.map fun t => ((DDATriangle (rne 53) z t).map fun q => rgbDist (I.px q.1.toNat q.2.toNat) (col t)).sum).sum ≤
        3 * η * ((U.map fun t => (DDATriangle (rne 53) z t).length).sum : ℕ) + 3 * ((U.map area).sum - ((U.filter fun t => decide (SmallCircle B t)).map area).sum) := by
    intro U
    induction U with
    | nil => intro _; simp
    | cons t U ih =>
      intro hU
      have i1 := ih fun t' h' => hU t' (by simp [h'])
      have i2 := one t (hU t (by simp))
      simp only [List.map_cons, List.sum_cons, Nat.cast_add]
      by_cases hs : SmallCircle B t
      · rw [List.filter_cons_of_pos (by simpa using hs), List.map_cons, List.sum_cons]
        rw [if_pos hs] at i2
        linarith
      · rw [List.filter_cons_of_neg (by simpa using hs)]
        rw [if_neg hs] at i2
        linarith
  have tot := all T fun _ h => h
  have hl : (((T.map fun t => (DDATriangle (rne 53) z t).length).sum : ℕ) : ℚ) ≤ w * h := by exact_mod_cast hlen
  have e3 : ((T.filter fun t => decide (SmallCircle B t)).map area).sum / (w * h) - η ≤ (T.map area).sum / (w * h) -
      (T.map fun t => ((DDATriangle (rne 53) z t).map fun q => rgbDist (I.px q.1.toNat q.2.toNat) (col t)).sum).sum / (3 * (w * h)) := by
    rw [← sub_nonneg]
    have : (T.map area).sum / (w * h) -
        (T.map fun t => ((DDATriangle (rne 53) z t).map fun q => rgbDist (I.px q.1.toNat q.2.toNat) (col t)).sum).sum / (3 * (w * h)) -
        (((T.filter fun t => decide (SmallCircle B t)).map area).sum / (w * h) - η) =
        (3 * η * (w * h) + 3 * ((T.map area).sum - ((T.filter fun t => decide (SmallCircle B t)).map area).sum) -
          (T.map fun t => ((DDATriangle (rne 53) z t).map fun q => rgbDist (I.px q.1.toNat q.2.toNat) (col t)).sum).sum) / (3 * (w * h)) := by
      field_simp
      ring
    rw [this]
    refine div_nonneg ?_ (by positivity)
    have := mul_le_mul_of_nonneg_left hl (show 0 ≤ 3 * η by positivity)
    linarith
  linarith

/-- **C103** (partial: under `Arith`, images of at most 6800000 pixels), IEEE arithmetic: if every disc of radius `r` about a location of the image contains a stored point, and the mean
squared difference of the channels of pixels at most `2 B` apart is at most `η`, the fitness is at least the share of the image at least `δ + r` away from the border, minus `η` and 1/100000.
Here `δ` is any number with `2 (δ + 2 r)² < (3 max(w, h) - 1) δ`, and `B` is at least `δ + 2 r` and `(δ + 2 r)² / 2 δ`. -/
theorem c103_fitness_partial (A : Arith g fs w h ops) (H : Hist w h ops s m) (e : exec g fs w h ops = some d) (hwh : w * h ≤ 6800000) {r δ B η : ℚ} (hr : 0 ≤ r) (hδ : 0 < δ)
    (hρ : 2 * (δ + 2 * r) ^ 2 < (3 * (side w h : ℚ) - 1) * δ) (h1 : δ + 2 * r ≤ B) (h2 : (δ + 2 * r) ^ 2 ≤ 2 * δ * B) (mw : 2 * (δ + r) ≤ w)
    (net : ∀ x y : ℝ, 0 ≤ x → x ≤ w → 0 ≤ y → y ≤ h → ∃ p ∈ s, ((p.x : ℝ) - x) ^ 2 + (p.y - y) ^ 2 ≤ (r : ℝ) ^ 2)
    (z : ℚ) (f : Nat → Nat → Fin 256 × Fin 256 × Fin 256) (G : Gentle (ofBytes (rne 53) w h f) (2 * B) η) {bs : Nat} (hb : 1 ≤ bs) (hb' : bs ≤ 16) :
    ∃ v, evalTris (rne 53) z (ofBytes (rne 53) w h f) bs (iterTriangles d) = some v ∧
      (1 - 2 * (δ + r) / w) * (1 - 2 * (δ + r) / h) - η - 1 / 100000 ≤ v := by
  have I := (A.inv H e).1
  have M := mesh_of A H e
  have k := A.size
  obtain ⟨v, ev, hv⟩ := fitness_small z f hb hb' k.w1 k.h1 (by have := k.w2; omega) (by have := k.h2; omega) hwh M G
  refine ⟨v, ev, le_trans ?_ hv⟩
  have ar := cover_area (T := (iterTriangles d).filter fun t => decide (SmallCircle B t)) (fun t ht => M.nondeg t (List.mem_filter.mp ht).1) (a := δ + r) (b := w - (δ + r))
    (c := δ + r) (d := h - (δ + r)) (by linarith) (by
      intro q x1 x2 y1 y2
      have S := surrounded_net hr hδ.le net x1.le x2.le y1.le y2.le
      obtain ⟨t, ⟨ht, hq⟩, -⟩ := c100_cover_partial A H e S hδ hρ
      refine ⟨t, List.mem_filter.mpr ⟨ht, ?_⟩, hq⟩
      have hl := ((I.iter_iff A.size t).mp ht).1
      have nd := I.nondeg hl
      obtain ⟨o, ho⟩ := centre_exists nd
      have hp := (I.inv.half_pow (List.mem_map_of_mem hl) ((owns_iff nd q).mp hq)).1
      rw [pow_centre nd ho] at hp
      simp only [decide_eq_true_eq]
      exact ⟨o, ho, small_disc S hδ (by linarith) h1 h2 (by linarith)
        (fun p hp => not_lt.mp fun hlt => c01_empty_circles_partial A H e t hl p hp ⟨o, ho, hlt⟩)⟩)
  have hw0 : (0 : ℚ) < w := by exact_mod_cast k.w1
  have hh0 : (0 : ℚ) < h := by exact_mod_cast k.h1
  have e1 : (1 - 2 * (δ + r) / w) * (1 - 2 * (δ + r) / h) = (w - (δ + r) - (δ + r)) * (h - (δ + r) - (δ + r)) / (w * h) := by
    field_simp
    ring
  rw [e1]
  have := div_le_div_of_nonneg_right ar (show (0 : ℚ) ≤ w * h by positivity)
  linarith

/-- **C103** (partial: as above), for `δ = r`: if every disc of radius `r` about a location of the image contains a stored point, `18 r < 3 max(w, h) - 1`, and the mean squared difference of
the channels of pixels at most `9 r` apart is at most `η`, the fitness is at least `(1 - 4 r / w) (1 - 4 r / h) - η - 1/100000`. -/
theorem c103_net_partial (A : Arith g fs w h ops) (H : Hist w h ops s m) (e : exec g fs w h ops = some d) (hwh : w * h ≤ 6800000) {r η : ℚ} (hr : 0 < r)
    (hn : 18 * r < 3 * (side w h : ℚ) - 1) (mw : 4 * r ≤ w)
    (net : ∀ x y : ℝ, 0 ≤ x → x ≤ w → 0 ≤ y → y ≤ h → ∃ p ∈ s, ((p.x : ℝ) - x) ^ 2 + (p.y - y) ^ 2 ≤ (r : ℝ) ^ 2)
    (z : ℚ) (f : Nat → Nat → Fin 256 × Fin 256 × Fin 256) (G : Gentle (ofBytes (rne 53) w h f) (9 * r) η) {bs : Nat} (hb : 1 ≤ bs) (hb' : bs ≤ 16) :
    ∃ v, evalTris (rne 53) z (ofBytes (rne 53) w h f) bs (iterTriangles d) = some v ∧ (1 - 4 * r / w) * (1 - 4 * r / h) - η - 1 / 100000 ≤ v := by
  obtain ⟨v, h1, h2⟩ := c103_fitness_partial A H e hwh (r := r) (δ := r) (B := 9 * r / 2) hr.le hr (by nlinarith [mul_lt_mul_of_pos_right hn hr]) (by linarith) (by nlinarith) (by linarith) net z f
    (by rw [show 2 * (9 * r / 2) = 9 * r by ring]; exact G) hb hb'
  refine ⟨v, h1, ?_⟩
  rw [show 2 * (r + r) = 4 * r by ring] at h2
  exact h2

end

section
variable {σ : Type} {r : Source σ} {im : Source16} {n : Int} {srt : Alg.Sorter} {z : ℚ} {bf : D → D → Bufs} {s0 : σ}

/-- **C103**, `DefaultAlgorithm` (partial: IEEE arithmetic, images up to 4096 pixels a side and 6800000 pixels): if the pixels of a member are dense as above, the best fitness is at least as large, and
stays so in all later generations (C78). -/
theorem c103_default_partial (S : DefaultOK r im n srt) {k : Nat} {a : Algo D Tri} {s : σ} (h : DefaultExec ieee srt z bf r im n s0 k a s)
    (hwh : im.maxX.toNat * im.maxY.toNat ≤ 6800000) {ρ η : ℚ} (hr : 0 < ρ) (hn : 18 * ρ < 3 * (side im.maxX.toNat im.maxY.toNat : ℚ) - 1) (mw : 4 * ρ ≤ (im.maxX.toNat : ℚ))
    (G : Gentle (theImage im) (9 * ρ) η) {ps : List NP} (hp : ps ∈ a.pop)
    (net : ∀ x y : ℝ, 0 ≤ x → x ≤ im.maxX.toNat → 0 ≤ y → y ≤ im.maxY.toNat → ∃ p ∈ pix (rne 53) (theImage im) ps, ((p.x : ℝ) - x) ^ 2 + (p.y - y) ^ 2 ≤ (ρ : ℝ) ^ 2) :
    (1 - 4 * ρ / im.maxX.toNat) * (1 - 4 * ρ / im.maxY.toNat) - η - 1 / 100000 ≤ a.bestFit := by
  have E := default_exec S h
  have T := S.setting s0
  obtain ⟨i, hi⟩ := List.mem_iff_getElem?.mp hp
  obtain ⟨id, d, v, -, -, e1, e2, ⟨ops, m, d0, H, e0, hd⟩, -⟩ := c49_triangles_partial T E hi
  obtain ⟨v', k1, k2⟩ := c103_net_partial (w := im.maxX.toNat) (h := im.maxY.toNat) (T.arith ops) H e0 hwh hr hn mw net z (upperBytes im) G (bs := 5) (by norm_num) (by norm_num)
  rw [← hd, e2] at k1
  cases k1
  exact k2.trans ((c43_triangles_partial T E).2.2.2 v (List.mem_of_getElem? e1))

end

/-! ### Cases -/

/-- Two shades of grey. -/
def shades (x _y : Nat) : Fin 256 × Fin 256 × Fin 256 := if x < 6 then (100, 100, 100) else (110, 110, 110)

theorem shades_gentle (ℓ : ℚ) : Gentle (ofBytes (rne 53) 12 12 shades) ℓ (1 / 600) := by
  have k : ∀ a ∈ ([100, 110] : List (Fin 256)), ∀ b ∈ ([100, 110] : List (Fin 256)), (convertColor (rne 53) a - convertColor (rne 53) b) ^ 2 ≤ 1 / 600 := by decide +kernel
  have c : ∀ x y, ∃ u ∈ ([100, 110] : List (Fin 256)), shades x y = (u, u, u) := by
    intro x y
    unfold shades
    split
    · exact ⟨100, by simp, rfl⟩
    · exact ⟨110, by simp, rfl⟩
  intro x y x' y' _ _ _ _ _
  obtain ⟨u, hu, e⟩ := c x y
  obtain ⟨u', hu', e'⟩ := c x' y'
  have := k u hu u' hu'
  unfold rgbDist ofBytes
  simp only [e, e']
  linarith

/-- C103: the points with even coordinates give a fitness of more than 1/4, for a margin of 3 of 12 pixels on each side. -/
example : ∃ d v, exec (gridGeo ieee 12 12) (rne 53) 12 12 (evenPts.map .ins) = some d ∧ evalTris (rne 53) 0 (ofBytes (rne 53) 12 12 shades) 5 (iterTriangles d) = some v ∧
    (1 - 6 / 12) * (1 - 6 / 12) - 1 / 600 - 1 / 100000 ≤ v := by
  have k : SizeOk 12 12 := ⟨by norm_num, by norm_num, by norm_num, by norm_num, by norm_num⟩
  have img : ∀ p ∈ evenPts, InImg 12 12 p := by
    intro p hp
    simp only [evenPts, List.mem_flatMap, List.mem_map, List.mem_range] at hp
    obtain ⟨i, hi, j, hj, rfl⟩ := hp
    exact ⟨by simp only; omega, by simp only; omega, by simp only; omega, by simp only; omega⟩
  obtain ⟨m, H⟩ := hist_ins evenPts (Hist.nil (w := 12) (h := 12)) img (by decide)
  rw [List.nil_append, zero_add] at H
  obtain ⟨d, e⟩ := c06_c07_run_ok_partial (arith_ieee k (by decide)) H
  obtain ⟨v, h1, h2⟩ := c103_net_partial (arith_ieee k (by decide)) H e (by norm_num) (r := 3 / 2) (η := 1 / 600) (by norm_num) (by unfold side; norm_num) (by norm_num) even_net 0 shades
    (shades_gentle _) (bs := 5) (by norm_num) (by norm_num)
  exact ⟨d, v, e, h1, le_trans (by norm_num) h2⟩

/-- A source that goes through the corners of the pixels of an image of 6 by 5. -/
def sweep : Source Nat where
  float32 n := (0, n)
  norm n := (0, n)
  float64 n := (min (99 / 100) (if n % 2 = 0 then (n / 2 / 6 % 7 : Nat) / 6 else (n / 2 % 6 : Nat) / 5), n + 1)
  intn _ n := (0, n)

theorem sweep_ok : sweep.OK := by
  refine ⟨fun s => ⟨?_, ?_⟩, fun n s h => h⟩
  · simp only [sweep]
    refine le_min (by norm_num) ?_
    split <;> positivity
  · exact lt_of_le_of_lt (min_le_left _ _) (by norm_num)

/-- A grey image. -/
def greyImage : Source16 := ⟨6, 5, fun _ _ => (40000, 40000, 40000)⟩

theorem grey_setting : DefaultOK sweep greyImage 42 someSorter :=
  ⟨sweep_ok, fun _ _ => ⟨by simp [greyImage], by simp [greyImage], by simp [greyImage]⟩, by decide, by decide, by decide, by norm_num, someSorter_ok⟩

theorem grey_gentle : Gentle (theImage greyImage) (9 * (3 / 4)) 0 := by
  intro x y x' y' a b c d _
  change x < 6 at a
  change y < 5 at b
  change x' < 6 at c
  change y' < 5 at d
  have k : ∀ x y, x < 6 → y < 5 → upperBytes greyImage x y = (Fin.ofNat 256 156, Fin.ofNat 256 156, Fin.ofNat 256 156) := by
    intro x y hx hy
    unfold upperBytes
    rw [if_pos ⟨by simp only [greyImage]; omega, by simp only [greyImage]; omega⟩]
    norm_num [greyImage]
  unfold rgbDist theImage ofBytes
  simp only [k x y a b, k x' y' c d]
  norm_num

/-- The first group that is drawn is a member. -/
theorem draw_first {σ : Type} (r : Source σ) (n : Int) (m : Nat) (s : σ) : (randomPoints r n.toNat s).1 ∈ (draw r n (m + 1) s).1 := by
  induction m with
  | zero => simp [draw]
  | succ m ih =>
    rw [draw]
    exact List.mem_append_left _ ih

theorem sweep_net (x y : ℝ) (x1 : 0 ≤ x) (x2 : x ≤ (greyImage.maxX.toNat : ℕ)) (y1 : 0 ≤ y) (y2 : y ≤ (greyImage.maxY.toNat : ℕ)) :
    ∃ p ∈ pix (rne 53) (theImage greyImage) (randomPoints sweep 42 0).1, ((p.x : ℝ) - x) ^ 2 + (p.y - y) ^ 2 ≤ ((3 / 4 : ℚ) : ℝ) ^ 2 := by
  have one : ∀ (k : ℕ) (z : ℝ), 0 ≤ z → z ≤ k → ∃ i : ℕ, i < k + 1 ∧ ((i : ℝ) - z) ^ 2 ≤ 1 / 4 := by
    intro k z z1 z2
    refine ⟨⌊z + 1 / 2⌋₊, ?_, ?_⟩
    · rw [Nat.floor_lt (by linarith)]
      push_cast
      linarith
    · have a := Nat.floor_le (show 0 ≤ z + 1 / 2 by linarith)
      have b := Nat.lt_floor_add_one (z + 1 / 2)
      nlinarith
  obtain ⟨i, hi, ei⟩ := one 6 x x1 x2
  obtain ⟨j, hj, ej⟩ := one 5 y y1 y2
  have all : ∀ i < 7, ∀ j < 6, (⟨(i : Nat), (j : Nat)⟩ : Pt) ∈ ((randomPoints sweep 42 0).1.map fun p => createPoint (rne 53) p 6 5) := by decide +kernel
  refine ⟨⟨i, j⟩, all i hi j hj, ?_⟩
  push_cast
  linarith

/-- `c103_default_partial`: `DefaultAlgorithm` with that source starts with a fitness of at least 1/5 - 1/100000. -/
example : ∃ a s, DefaultExec ieee someSorter 0 (fun _ _ => ⟨[], [], fun _ _ => [], fun _ => []⟩) sweep greyImage 42 0 0 a s ∧ 1 / 5 - 1 / 100000 ≤ a.bestFit := by
  obtain ⟨l, a, s, h⟩ := (c78_new_partial (z := 0) (bf := fun _ _ => ⟨[], [], fun _ _ => [], fun _ => []⟩) grey_setting 0).mpr (by decide)
  have E := DefaultExec.new h
  obtain ⟨gs, e, P⟩ := c101_default_new_partial grey_setting h
  have mem : (randomPoints sweep 42 0).1 ∈ a.pop := P.mem_iff.mpr (by have := draw_first sweep 42 399 0; rw [e] at this; exact this)
  have k := c103_default_partial grey_setting E (ρ := 3 / 4) (η := 0) (by decide) (by norm_num) (by change 18 * (3 / 4) < 3 * (side 6 5 : ℚ) - 1; unfold side; norm_num)
    (by change 4 * (3 / 4) ≤ ((6 : ℕ) : ℚ); norm_num) grey_gentle mem sweep_net
  refine ⟨a, s, E, le_trans ?_ k⟩
  change (1 : ℚ) / 5 - 1 / 100000 ≤ (1 - 4 * (3 / 4) / (6 : ℕ)) * (1 - 4 * (3 / 4) / (5 : ℕ)) - 0 - 1 / 100000
  norm_num

end Verif.Props

import Verif.Props.FitnessBound
import Verif.Raster.Amount

/-!
# Number of pixels of a triangle (C65) and lower bounds of the fitness (C73)
-/

namespace Verif.Props

open Verif.Tri Verif.Spec Verif.Float Verif.Raster Verif.Fit
open Verif.Incr hiding trunc

/-! ### C65: number of pixels of a triangle -/

/-- **C65**: a triangle visits at most as many pixels as twice its area. -/
theorem c65_pixels {fl : ℚ → ℚ} (R : Rnd 53 fl) (z : ℚ) {t : Tri} (hn : NonDegenerate t)
    (ht : ∀ v ∈ vlist t, Int16 v ∧ 0 ≤ v.x ∧ 0 ≤ v.y) : ((DDATriangle fl z t).length : ℚ) ≤ 2 * area t := by
  have hm : Monotone fl := fun a b => R.mono a b
  obtain ⟨ha, hb, hc⟩ := allT_of (P := fun v => Int16 v ∧ 0 ≤ v.x ∧ 0 ≤ v.y) ht
  have nd : (DDATriangle fl z t).Nodup := by
    rw [List.nodup_iff_count_le_one]
    rintro ⟨x, y⟩
    rw [count_vis hm]
    exact vis_le_one x y
  obtain ⟨u, v, huv, hu, hv, key⟩ := unvisited R ⟨ha.1.small, hb.1.small, hc.1.small⟩ hn
  let f : Int × Int ↪ Pt := ⟨fun q => ⟨q.1 + 1, q.2⟩, by
    rintro ⟨a, b⟩ ⟨c, d⟩ h
    simp only [Pt.mk.injEq] at h
    simp only [Prod.mk.injEq]
    omega⟩
  let V : Finset Pt := (DDATriangle fl z t).toFinset.map f
  have cV : V.card = (DDATriangle fl z t).length := by
    rw [Finset.card_map, List.toFinset_card_of_nodup nd]
  have hV : ∀ p ∈ V, p ≠ u ∧ p ≠ v ∧ Closed t (loc p) := by
    intro p hp
    simp only [V, Finset.mem_map, List.mem_toFinset] at hp
    obtain ⟨⟨x, y⟩, hq, rfl⟩ := hp
    have h1 := (c62_rounded R z hn ht x y).2 hq
    rw [← List.count_pos_iff, count_vis hm] at hq
    have h2 := key x y (by omega)
    refine ⟨h2.1, h2.2, ?_⟩
    show Closed t ⟨((x + 1 : Int) : ℚ), (y : ℚ)⟩
    push_cast
    exact h1
  let S : Finset Pt := insert u (insert v V)
  have cS : S.card = (DDATriangle fl z t).length + 2 := by
    rw [Finset.card_insert_of_notMem, Finset.card_insert_of_notMem, cV]
    · exact fun h => (hV v h).2.1 rfl
    · intro h
      rcases Finset.mem_insert.mp h with h | h
      · exact huv h
      · exact (hV u h).1 rfl
  have hvert : ∀ p ∈ [t.a, t.b, t.c], Closed t (loc p) := by
    intro p hp
    have z1 : ∀ a b : Pt, area2 a b (loc a) = 0 := by intro a b; unfold area2 loc; ring
    have z2 : ∀ a b : Pt, area2 a b (loc b) = 0 := by intro a b; unfold area2 loc; ring
    simp only [List.mem_cons, List.not_mem_nil, or_false] at hp
    unfold Closed
    rcases hp with rfl | rfl | rfl <;> simp only [z1, z2, le_refl, true_and, and_true] <;> exact le_total _ _
  have hS : ∀ p ∈ S, Closed t (loc p) := by
    intro p hp
    rcases Finset.mem_insert.mp hp with rfl | hp
    · exact hvert _ hu
    rcases Finset.mem_insert.mp hp with rfl | hp
    · exact hvert _ hv
    · exact (hV p hp).2.2
  have two : 2 * area t = |((iori t.a t.b t.c : Int) : ℚ)| := by unfold area; rw [iori_area]; ring
  rw [two]
  unfold NonDegenerate at hn
  rw [← iori_area] at hn
  have hn' : iori t.a t.b t.c ≠ 0 := by exact_mod_cast hn
  have cl : ∀ p ∈ S, (0 ≤ iori t.a t.b p ∧ 0 ≤ iori t.b t.c p ∧ 0 ≤ iori t.c t.a p) ∨ (iori t.a t.b p ≤ 0 ∧ iori t.b t.c p ≤ 0 ∧ iori t.c t.a p ≤ 0) := by
    intro p hp
    have := hS p hp
    unfold Closed at this
    simp only [← iori_area] at this
    exact_mod_cast this
  rcases lt_or_gt_of_ne hn' with hneg | hpos
  · have h1 : iori t.b t.a t.c = - iori t.a t.b t.c := by unfold iori; ring
    have := few _ (Int.toNat_of_nonneg (a := iori t.b t.a t.c) (by omega)).symm (by omega) S (by
      intro p hp
      have tot := iori_total t.a t.b t.c p
      have e1 : iori t.b t.a p = - iori t.a t.b p := by unfold iori; ring
      have e2 : iori t.a t.c p = - iori t.c t.a p := by unfold iori; ring
      have e3 : iori t.c t.b p = - iori t.b t.c p := by unfold iori; ring
      rcases cl p hp with k | k
      · omega
      · exact ⟨by omega, by omega, by omega⟩)
    rw [abs_of_neg (by exact_mod_cast hneg)]
    have k : ((DDATriangle fl z t).length : ℤ) ≤ - iori t.a t.b t.c := by
      rw [cS] at this; push_cast at this; omega
    exact_mod_cast k
  · have := few _ (Int.toNat_of_nonneg (a := iori t.a t.b t.c) (by omega)).symm (by omega) S (by
      intro p hp
      have tot := iori_total t.a t.b t.c p
      rcases cl p hp with k | k
      · exact k
      · omega)
    rw [abs_of_pos (by exact_mod_cast hpos)]
    have k : ((DDATriangle fl z t).length : ℤ) ≤ iori t.a t.b t.c := by
      rw [cS] at this; push_cast at this; omega
    exact_mod_cast k


example : ((DDATriangle (rne 53) 0 tri1).length : ℚ) ≤ 2 * area tri1 :=
  c65_pixels (rne_rnd (by norm_num)) 0 (by unfold NonDegenerate tri1 area2 loc; norm_num) (by unfold Int16; decide)

/-- The bound is reached: a triangle without lattice points in its interior. -/
example : (DDATriangle (rne 53) 0 ⟨⟨0, 0⟩, ⟨3, 0⟩, ⟨3, 1⟩⟩).length = 3 ∧ 2 * area ⟨⟨0, 0⟩, ⟨3, 0⟩, ⟨3, 1⟩⟩ = 3 := by
  refine ⟨by decide +kernel, by unfold area area2 loc; norm_num⟩

/-! ### C73: fitness of covered images -/

/-- A dyadic upper bound of the accumulated difference. -/
theorem foldl_upper {fl : ℚ → ℚ} (R : Rnd 53 fl) : ∀ (l : List (ℚ × ℕ)) (a : ℚ) (k : ℕ), a ≤ (k : ℚ) / 64 → (∀ x ∈ l, x.1 ≤ (x.2 : ℚ) / 64) →
    k + (l.map Prod.snd).sum ≤ 2 ^ 50 → (l.map Prod.fst).foldl (fun s x => fl (s + x)) a ≤ ((k + (l.map Prod.snd).sum : ℕ) : ℚ) / 64 := by
  intro l
  induction l with
  | nil => intro a k ha _ _; simpa using ha
  | cons x l ih =>
    intro a k ha hl hk
    simp only [List.map_cons, List.sum_cons, List.foldl_cons] at hk ⊢
    have hx := hl x (by simp)
    have step : fl (a + x.1) ≤ ((k + x.2 : ℕ) : ℚ) / 64 := by
      have := R.mono (a + x.1) (((k + x.2 : ℕ) : ℚ) / 64) (by push_cast; linarith)
      rwa [R.fix (((k + x.2 : ℕ) : ℚ) / 64)] at this
      refine ⟨((k + x.2 : ℕ) : ℤ), -6, ?_, by push_cast; norm_num; ring⟩
      rw [abs_of_nonneg (by positivity)]
      have h1 : k + x.2 ≤ 2 ^ 50 := by omega
      have : ((k + x.2 : ℕ) : ℤ) ≤ 2 ^ 50 := by exact_mod_cast h1
      exact this.trans (by norm_num)
    have := ih (fl (a + x.1)) (k + x.2) step (fun y hy => hl y (by simp [hy])) (by omega)
    rwa [Nat.add_assoc] at this

/-- The fitness from an upper bound of the total difference. -/
theorem finish_ge {fl : ℚ → ℚ} (R : Rnd 53 fl) {I : Img} (hw1 : 1 ≤ I.w) (hh1 : 1 ≤ I.h) (hwh : I.w * I.h ≤ 6800000)
    {D : ℚ} {K a : ℕ} (hA : (a : ℚ) / 2 ≤ I.w * I.h) (hD : D ≤ (K : ℚ) / 64) (hK : K ≤ 2 ^ 50) :
    fl (1 - fl ((K / 64 + 195075 * (I.w * I.h - a / 2)) / (195075 * (I.w * I.h)))) ≤ finish fl I D (a / 2) := by
  have hwhI : ((I.w * I.h : ℕ) : ℤ) ≤ 6800000 := by exact_mod_cast hwh
  have h3 : (1 : ℚ) ≤ I.w := by exact_mod_cast hw1
  have h4 : (1 : ℚ) ≤ I.h := by exact_mod_cast hh1
  have hwh0 : (0 : ℚ) < I.w * I.h := by positivity
  have haI : (a : ℤ) ≤ 2 * ((I.w * I.h : ℕ) : ℤ) := by
    have : (a : ℚ) ≤ ((2 * (I.w * I.h) : ℕ) : ℚ) := by push_cast; linarith
    have : a ≤ 2 * (I.w * I.h) := by exact_mod_cast this
    exact_mod_cast this
  unfold finish
  simp only
  have e1 : fl ((I.w * I.h : Nat) : ℚ) = I.w * I.h := by
    have := R.int (n := ((I.w * I.h : ℕ) : ℤ)) (by rw [abs_of_nonneg (by positivity)]; exact hwhI.trans (by norm_num))
    push_cast at this ⊢
    exact this
  have e2 : fl ((maxPixelDifference * I.w * I.h : Int) : ℚ) = 195075 * (I.w * I.h) := by
    have : maxPixelDifference * I.w * I.h = 195075 * ((I.w * I.h : ℕ) : ℤ) := by unfold maxPixelDifference; push_cast; ring
    rw [this, R.int (by rw [abs_of_nonneg (by positivity)]; generalize ((I.w * I.h : ℕ) : ℤ) = k at *; norm_num at hwhI ⊢; linarith)]
    push_cast
    ring
  have e3 : fl ((I.w : ℚ) * I.h - a / 2) = I.w * I.h - a / 2 := by
    refine R.fix _ ⟨2 * ((I.w * I.h : ℕ) : ℤ) - a, -1, ?_, by push_cast; norm_num; ring⟩
    rw [abs_of_nonneg (by omega)]
    norm_num
    omega
  have e4 : fl ((maxPixelDifference : ℚ) * (I.w * I.h - a / 2)) = 195075 * (I.w * I.h - a / 2) := by
    have : ((maxPixelDifference : Int) : ℚ) = 195075 := by unfold maxPixelDifference; norm_num
    rw [this]
    refine R.fix _ ⟨195075 * (2 * ((I.w * I.h : ℕ) : ℤ) - a), -1, ?_, by push_cast; norm_num; ring⟩
    rw [abs_of_nonneg (by omega)]
    norm_num
    omega
  rw [e1, e2, e3, e4]
  have c : fl (D + 195075 * (I.w * I.h - a / 2)) ≤ K / 64 + 195075 * (I.w * I.h - a / 2) := by
    have := R.mono (D + 195075 * ((I.w : ℚ) * I.h - a / 2)) (K / 64 + 195075 * (I.w * I.h - a / 2)) (by linarith)
    rwa [R.fix (K / 64 + 195075 * (I.w * I.h - a / 2))] at this
    refine ⟨K + 32 * (195075 * (2 * ((I.w * I.h : ℕ) : ℤ) - a)), -6, ?_, by push_cast; norm_num; ring⟩
    have : (K : ℤ) ≤ 2 ^ 50 := by exact_mod_cast hK
    rw [abs_of_nonneg (by omega)]
    norm_num at this ⊢
    omega
  have d := R.mono _ _ (div_le_div_of_nonneg_right c (show (0 : ℚ) ≤ 195075 * (I.w * I.h) by positivity))
  exact R.mono _ _ (by linarith)

theorem finish_zero {fl : ℚ → ℚ} (R : Rnd 53 fl) {I : Img} (hw1 : 1 ≤ I.w) (hh1 : 1 ≤ I.h) (hw : I.w ≤ 32767) (hh : I.h ≤ 32767) :
    finish fl I 0 0 = 0 := by
  have h3 : (1 : ℚ) ≤ I.w := by exact_mod_cast hw1
  have h4 : (1 : ℚ) ≤ I.h := by exact_mod_cast hh1
  have hwhI : ((I.w * I.h : ℕ) : ℤ) ≤ 32767 * 32767 := by exact_mod_cast Nat.mul_le_mul hw hh
  unfold finish
  simp only
  have e1 : fl ((I.w * I.h : Nat) : ℚ) = ((I.w * I.h : ℕ) : ℚ) :=
    R.int (n := ((I.w * I.h : ℕ) : ℤ)) (by rw [abs_of_nonneg (by positivity)]; exact hwhI.trans (by norm_num))
  have e2 : fl ((maxPixelDifference * I.w * I.h : Int) : ℚ) = 195075 * ((I.w * I.h : ℕ) : ℚ) := by
    have : maxPixelDifference * I.w * I.h = 195075 * ((I.w * I.h : ℕ) : ℤ) := by unfold maxPixelDifference; push_cast; ring
    rw [this, R.int (by rw [abs_of_nonneg (by positivity)]; generalize ((I.w * I.h : ℕ) : ℤ) = k at *; norm_num at hwhI ⊢; linarith)]
    push_cast
    ring
  have e3 : ((maxPixelDifference : Int) : ℚ) * ((I.w * I.h : ℕ) : ℚ) = ((maxPixelDifference * I.w * I.h : Int) : ℚ) := by push_cast; ring
  have hP : (0 : ℚ) < 195075 * ((I.w * I.h : ℕ) : ℚ) := by push_cast; positivity
  have e4 : fl (195075 * ((I.w * I.h : ℕ) : ℚ)) = 195075 * ((I.w * I.h : ℕ) : ℚ) := by
    have := R.int (n := 195075 * ((I.w * I.h : ℕ) : ℤ)) (by rw [abs_of_nonneg (by positivity)]; generalize ((I.w * I.h : ℕ) : ℤ) = k at *; norm_num at hwhI ⊢; linarith)
    push_cast at this ⊢
    exact this
  have one : fl 1 = 1 := by have := R.int (n := 1) (by norm_num); simpa using this
  rw [e1, sub_zero, e1, e3, e2, zero_add, e4, div_self hP.ne', one, sub_self, R.zero]

theorem sqErr_mid (f : Nat → Nat → Fin 256 × Fin 256 × Fin 256) (qs : List (Int × Int)) :
    sqErr (qs.map (byteCol f)) (255 / 2, 255 / 2, 255 / 2) ≤ 195075 / 4 * qs.length := by
  unfold sqErr
  induction qs with
  | nil => simp
  | cons q qs ih =>
    have b : ∀ k : Fin 256, (((k : ℕ) : ℚ) - 255 / 2) ^ 2 ≤ 65025 / 4 := by
      intro k
      have h0 : (0 : ℚ) ≤ ((k : ℕ) : ℚ) := by positivity
      have h1 : ((k : ℕ) : ℚ) ≤ 255 := by exact_mod_cast Nat.le_of_lt_succ k.isLt
      nlinarith
    simp only [List.map_cons, List.sum_cons, List.length_cons, dist2, byteCol] at ih ⊢
    push_cast
    linarith [b (f q.1.toNat q.2.toNat).1, b (f q.1.toNat q.2.toNat).2.1, b (f q.1.toNat q.2.toNat).2.2]

/-- The sum of the areas in halves. -/
theorem area_sum_dy (T : List Tri) : ∃ n : ℕ, (T.map area).sum = n / 2 := by
  induction T with
  | nil => exact ⟨0, by simp⟩
  | cons t T ih =>
    obtain ⟨n, hn⟩ := ih
    obtain ⟨k, hk⟩ := area_dy t
    exact ⟨k + n, by simp only [List.map_cons, List.sum_cons, hn, hk]; push_cast; ring⟩

section
variable {w h : Nat} {T : List Tri}

/-- **C73** (partial: for meshes as triangulations give them): with IEEE arithmetic the fitness of an 8-bit image of at most
6800000 pixels is at least 48% of the share of the image that the triangles cover. -/
theorem c73_lower_partial (z : ℚ) (f : Nat → Nat → Fin 256 × Fin 256 × Fin 256) {bs : Nat} (hb : 1 ≤ bs) (hb' : bs ≤ 16)
    (hw1 : 1 ≤ w) (hh1 : 1 ≤ h) (hw : w ≤ 32767) (hh : h ≤ 32767) (hwh : w * h ≤ 6800000) (M : Mesh w h T) :
    ∃ v, evalTris (rne 53) z (ofBytes (rne 53) w h f) bs T = some v ∧ 12 / 25 * ((T.map area).sum / (w * h)) ≤ v := by
  have R : Rnd 53 (rne 53) := rne_rnd (by norm_num)
  have hI := ofBytes_ok R w h f
  refine ⟨_, evalTris_eq R z hI hb hb' hw hh M, ?_⟩
  have hlen := length_visits R z hw hh M
  have hcnt := mesh_count M
  let L : List (ℚ × ℕ) := T.map fun t => (sumsDiff (rne 53) (sumsOf (triPixels (rne 53) z (ofBytes (rne 53) w h f) t)),
    16 * 195075 * (DDATriangle (rne 53) z t).length + 1)
  have eL : (T.map fun t => sumsDiff (rne 53) (sumsOf (triPixels (rne 53) z (ofBytes (rne 53) w h f) t))) = L.map Prod.fst := by
    simp only [L, List.map_map]; rfl
  have sL : (L.map Prod.snd).sum = 16 * 195075 * (T.map fun t => (DDATriangle (rne 53) z t).length).sum + T.length := by
    simp only [L, List.map_map]
    clear hcnt hlen M eL
    induction T with
    | nil => simp
    | cons t T ih =>
      simp only [List.map_cons, List.sum_cons, Function.comp_apply, List.length_cons] at ih ⊢
      rw [ih]
      ring
  have len2 : (((T.map fun t => (DDATriangle (rne 53) z t).length).sum : ℕ) : ℚ) ≤ 2 * (T.map area).sum ∧ (T.length : ℚ) ≤ 2 * (T.map area).sum := by
    have : ∀ U : List Tri, (∀ t ∈ U, InImage w h t ∧ NonDegenerate t) →
        (((U.map fun t => (DDATriangle (rne 53) z t).length).sum : ℕ) : ℚ) ≤ 2 * (U.map area).sum ∧ (U.length : ℚ) ≤ 2 * (U.map area).sum := by
      intro U
      induction U with
      | nil => intro _; simp
      | cons t U ih =>
        intro hU
        obtain ⟨i1, i2⟩ := ih (fun t' h' => hU t' (by simp [h']))
        obtain ⟨himg, hd⟩ := hU t (by simp)
        have k := c65_pixels R z hd (by
          intro v hv
          have := himg v hv
          unfold Int16
          omega)
        obtain ⟨n, hn⟩ := area_dy t
        have hpos : 0 < area t := by unfold area; exact div_pos (abs_pos.mpr hd) (by norm_num)
        have n1 : 1 ≤ n := by
          by_contra h0
          have : n = 0 := by omega
          rw [hn, this] at hpos
          simp at hpos
        have n1 : (1 : ℚ) ≤ n := by exact_mod_cast n1
        simp only [List.length_cons, List.map_cons, List.sum_cons]
        rw [Nat.cast_add, Nat.cast_add, Nat.cast_one]
        constructor
        · linarith
        · rw [hn]; linarith
    exact this T (fun t ht => ⟨M.img t ht, M.nondeg t ht⟩)
  have low := foldl_upper R L 0 0 (by simp) ?_ (by rw [sL]; norm_num; omega)
  · rw [eL]
    rw [Nat.zero_add, sL] at low
    obtain ⟨a, ha⟩ := area_sum_dy T
    have hA := M.area
    rw [ha] at hA len2 ⊢
    have fin := finish_ge R (I := ofBytes (rne 53) w h f) hw1 hh1 hwh (a := a) hA low (by norm_num; omega)
    refine le_trans ?_ fin
    show _ ≤ rne 53 (1 - rne 53 ((_ + 195075 * ((w : ℚ) * h - a / 2)) / (195075 * (w * h))))
    have hw0 : (0 : ℚ) < w := by exact_mod_cast hw1
    have hh0 : (0 : ℚ) < h := by exact_mod_cast hh1
    have hwhq : (w : ℚ) * h ≤ 6800000 := by exact_mod_cast hwh
    have hP : (0 : ℚ) < w * h := by positivity
    rcases Nat.eq_zero_or_pos a with rfl | apos
    · simp only [Nat.cast_zero, zero_div, mul_zero, sub_zero] at len2 ⊢
      have l1 : ((T.map fun t => (DDATriangle (rne 53) z t).length).sum : ℕ) = 0 := by
        have : ((T.map fun t => (DDATriangle (rne 53) z t).length).sum : ℕ) ≤ 0 := by exact_mod_cast len2.1
        omega
      have l2 : T.length = 0 := by
        have : T.length ≤ 0 := by exact_mod_cast len2.2
        omega
      rw [l1, l2]
      simp only [mul_zero, add_zero, Nat.cast_zero, zero_div, zero_add]
      rw [div_self (by positivity)]
      have one : rne 53 1 = 1 := by have := R.int (n := 1) (by norm_num); simpa using this
      rw [one, sub_self, R.zero]
    · have a1 : (1 : ℚ) ≤ a := by exact_mod_cast apos
      set r : ℚ := (a : ℚ) / 2 / (w * h) with hr
      have r1 : r ≤ 1 := by rw [hr, div_le_one hP]; exact hA
      have r0 : 1 / 13600000 ≤ r := by
        rw [hr, le_div_iff₀ hP]; linarith
      have X0 : (0 : ℚ) ≤ ((16 * 195075 * (T.map fun t => (DDATriangle (rne 53) z t).length).sum + T.length : ℕ) : ℚ) / 64 + 195075 * (w * h - a / 2) := by
        have : 0 ≤ (w : ℚ) * h - a / 2 := by linarith
        positivity
      have X1 : ((16 * 195075 * (T.map fun t => (DDATriangle (rne 53) z t).length).sum + T.length : ℕ) : ℚ) / 64 + 195075 * (w * h - a / 2)
          ≤ (1 - 49 / 100 * r) * (195075 * (w * h)) := by
        have : (1 - 49 / 100 * r) * (195075 * (w * h)) = 195075 * (w * h) - 49 / 100 * 195075 * (r * (w * h)) := by ring
        rw [this, hr, div_mul_cancel₀ _ hP.ne', Nat.cast_add, Nat.cast_mul]
        generalize ((T.map fun t => (DDATriangle (rne 53) z t).length).sum : ℚ) = y at *
        generalize ((T.map fun t => (DDATriangle (rne 53) z t).length).sum : ℕ) = y at *
        push_cast
        linarith [len2.1, len2.2]
      generalize ((16 * 195075 * (T.map fun t => (DDATriangle (rne 53) z t).length).sum + T.length : ℕ) : ℚ) / 64 + 195075 * (w * h - a / 2) = X at *
      have q0 : 0 ≤ X / (195075 * (w * h)) := by positivity
      have q1 : X / (195075 * (w * h)) ≤ 1 - 49 / 100 * r := by rw [div_le_iff₀ (by positivity)]; exact X1
      generalize X / (195075 * (w * h)) = q at *
      have u1 := R.hi q0
      generalize rne 53 q = u at *
      norm_num at u1 r0
      have u2 := R.lo (x := 1 - u) (by linarith)
      refine le_trans ?_ u2
      norm_num
      linarith
  · intro x hx
    obtain ⟨t, ht, rfl⟩ := List.mem_map.mp hx
    have one := List.single_le_sum (l := T.map fun t => (DDATriangle (rne 53) z t).length) (fun _ _ => Nat.zero_le _) _ (List.mem_map_of_mem ht)
    obtain ⟨v, hv, hle, -⟩ := c32_ieee_partial z (by omega) (by omega) f (M.img t ht) (M.nondeg t ht) hb hb' (by omega)
    unfold triValue at hv
    rw [triSums_of R z hI (by show w ≤ 32768; omega) (by show h ≤ 32768; omega) hb hb' (M.img t ht) (M.nondeg t ht), Option.map_some, Option.some_inj] at hv
    simp only
    rw [hv]
    have := hle (255 / 2, 255 / 2, 255 / 2)
    have := sqErr_mid f (DDATriangle (rne 53) z t)
    push_cast
    linarith

example : ∃ d v, exec (gridGeo ieee 40 30) (rne 53) 40 30 demoOps = some d ∧
    evalTris (rne 53) 0 (ofBytes (rne 53) 40 30 fun x y => if x < y then (7, 7, 7) else (9, 200, 0)) 5 (iterTriangles d) = some v ∧
      12 / 25 * (((iterTriangles d).map area).sum / ((40 : ℕ) * (30 : ℕ))) ≤ v := by
  obtain ⟨d, e⟩ := demo_exec
  obtain ⟨v, h1, h2⟩ := c73_lower_partial 0 (fun x y => if x < y then (7, 7, 7) else (9, 200, 0)) (bs := 5) (by norm_num) (by norm_num) (by norm_num)
    (by norm_num) (by norm_num) (by norm_num) (by norm_num) (mesh_of demo_arith demo_hist e)
  exact ⟨d, v, e, h1, h2⟩

/-- **C73**, sign: the fitness is 0 if no triangle is reported and positive otherwise. -/
theorem c73_positive_partial (z : ℚ) (f : Nat → Nat → Fin 256 × Fin 256 × Fin 256) {bs : Nat} (hb : 1 ≤ bs) (hb' : bs ≤ 16)
    (hw1 : 1 ≤ w) (hh1 : 1 ≤ h) (hw : w ≤ 32767) (hh : h ≤ 32767) (hwh : w * h ≤ 6800000) (M : Mesh w h T) :
    ∃ v, evalTris (rne 53) z (ofBytes (rne 53) w h f) bs T = some v ∧ (T = [] → v = 0) ∧ (T ≠ [] → 0 < v) := by
  obtain ⟨v, hv, hle⟩ := c73_lower_partial z f hb hb' hw1 hh1 hw hh hwh M
  refine ⟨v, hv, ?_, ?_⟩
  · rintro rfl
    have R : Rnd 53 (rne 53) := rne_rnd (by norm_num)
    rw [evalTris_eq R z (ofBytes_ok R w h f) hb hb' hw hh M, Option.some_inj] at hv
    rw [← hv]
    exact finish_zero R hw1 hh1 hw hh
  · intro hne
    refine lt_of_lt_of_le ?_ hle
    obtain ⟨t, ht⟩ := List.exists_mem_of_ne_nil T hne
    have hpos : 0 < area t := by unfold area; exact div_pos (abs_pos.mpr (M.nondeg t ht)) (by norm_num)
    have : area t ≤ (T.map area).sum := List.single_le_sum (by
      intro x hx
      obtain ⟨u, -, rfl⟩ := List.mem_map.mp hx
      unfold area; positivity) _ (List.mem_map_of_mem ht)
    have hw0 : (0 : ℚ) < w := by exact_mod_cast hw1
    have hh0 : (0 : ℚ) < h := by exact_mod_cast hh1
    have : 0 < (T.map area).sum := by linarith
    positivity

example : ∃ d v, exec (gridGeo ieee 40 30) (rne 53) 40 30 demoOps = some d ∧
    evalTris (rne 53) 0 (ofBytes (rne 53) 40 30 fun x y => if x < y then (7, 7, 7) else (9, 200, 0)) 5 (iterTriangles d) = some v ∧
      (iterTriangles d ≠ [] → 0 < v) := by
  obtain ⟨d, e⟩ := demo_exec
  obtain ⟨v, h1, -, h2⟩ := c73_positive_partial 0 (fun x y => if x < y then (7, 7, 7) else (9, 200, 0)) (bs := 5) (by norm_num) (by norm_num) (by norm_num)
    (by norm_num) (by norm_num) (by norm_num) (by norm_num) (mesh_of demo_arith demo_hist e)
  exact ⟨d, v, e, h1, h2⟩

end

section
variable {g : Geo} {fs : ℚ → ℚ} {w h : Nat} {ops : List Op} {s : Multiset Pt} {m : Nat} {d : D}

/-- **C73** for triangulations (partial: under `Arith`, images of at most 6800000 pixels): the fitness is 0 if `IterTriangles` reports nothing; otherwise
it is positive and at least 48% of the covered share of the image. -/
theorem c73_triangulation_partial (A : Arith g fs w h ops) (H : Hist w h ops s m) (e : exec g fs w h ops = some d) (hwh : w * h ≤ 6800000)
    (z : ℚ) (f : Nat → Nat → Fin 256 × Fin 256 × Fin 256) {bs : Nat} (hb : 1 ≤ bs) (hb' : bs ≤ 16) :
    ∃ v, evalTris (rne 53) z (ofBytes (rne 53) w h f) bs (iterTriangles d) = some v ∧ (iterTriangles d = [] → v = 0) ∧
      (iterTriangles d ≠ [] → 0 < v) ∧ 12 / 25 * (((iterTriangles d).map area).sum / (w * h)) ≤ v := by
  have M := mesh_of A H e
  have k := A.size
  obtain ⟨v, hv, h1, h2⟩ := c73_positive_partial z f hb hb' k.w1 k.h1 (by have := k.w2; omega) (by have := k.h2; omega) hwh M
  obtain ⟨v', hv', h3⟩ := c73_lower_partial z f hb hb' k.w1 k.h1 (by have := k.w2; omega) (by have := k.h2; omega) hwh M
  rw [hv] at hv'
  cases hv'
  exact ⟨v, hv, h1, h2, h3⟩

end

example : ∃ d v, exec (gridGeo ieee 40 30) (rne 53) 40 30 demoOps = some d ∧
    evalTris (rne 53) 0 (checker (rne 53) 40 30) 5 (iterTriangles d) = some v ∧ 0 < v := by
  obtain ⟨d, e⟩ := demo_exec
  obtain ⟨v, h1, _, h2, _⟩ := c73_triangulation_partial demo_arith demo_hist e (by norm_num) 0
    (fun x y => if (x + y) % 2 = 0 then (0, 0, 0) else (255, 255, 255)) (bs := 5) (by norm_num) (by norm_num)
  refine ⟨d, v, e, h1, h2 ?_⟩
  have : ((exec (gridGeo ieee 40 30) (rne 53) 40 30 demoOps).map fun d => (iterTriangles d).length) = some 1 := by decide +kernel
  rw [e, Option.map_some, Option.some_inj] at this
  intro h
  rw [h] at this
  exact absurd this (by simp)

end Verif.Props

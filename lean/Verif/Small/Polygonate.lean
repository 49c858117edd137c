import Verif.Small.Model
import Verif.Vor.Model
import Verif.Float.Round

/-!
# `Polygonate` as a whole, and the two ways of rounding to a pixel
-/

namespace Verif.Small

open Verif.Raster Verif.Fit Verif.Alg Verif.Float Verif.Tri
open Verif.Incr hiding trunc Entry

/-- polygonate.go 15-18: the point of the triangulation for a normalised point (`math.Round`, not `fastRound`). -/
def roundPoint (fl : ℚ → ℚ) (w h : Nat) (p : NP) : Pt := ⟨w16 (mathRound (fl (p.x * w))), w16 (mathRound (fl (p.y * h)))⟩

/-- polygonate.go 10-40 `Polygonate`. -/
def polygonate (g : Geo) (F : FloatOps) (srt : Vor.Sorter) (w h : Nat) (ps : List NP) : Option (List (List Pt)) := do
  let d ← newDelaunay g w h
  let d ← (ps.map (roundPoint F.r64 w h)).foldlM (insert g) d
  let ls ← Vor.voronoi g F srt w h d
  return ls.map polygonateOne

/-! ### The two roundings -/

/-- The largest float64 below one half. -/
def belowHalf : ℚ := 1 / 2 - 1 / 2 ^ 54

theorem rep_int (m e : ℤ) (hm : |m| ≤ 2 ^ 53) : Rep 53 ((m : ℚ) * (2 : ℚ) ^ e) := ⟨m, e, hm, rfl⟩

/-- A float64 with more than `2 ^ t` is a multiple of `2 ^ (t - 52)`. -/
theorem rep_multiple {v : ℚ} (hv : Rep 53 v) {t : ℤ} (ht : (2 : ℚ) ^ t < v) : ∃ n : ℤ, v = n * (2 : ℚ) ^ (t - 52) := by
  obtain ⟨m, e, hm, rfl⟩ := hv
  have hm' : (m : ℚ) ≤ 2 ^ (53 : ℤ) := by
    have : (m : ℚ) ≤ ((2 ^ 53 : ℤ) : ℚ) := by exact_mod_cast (le_abs_self m).trans hm
    norm_num at this ⊢
    exact this
  have h2 : (2 : ℚ) ^ t < (2 : ℚ) ^ (53 + e) := by
    rw [zpow_add₀ (by norm_num)]
    exact lt_of_lt_of_le ht (mul_le_mul_of_nonneg_right hm' (by positivity))
  have he : t - 52 ≤ e := by
    have := (zpow_lt_zpow_iff_right₀ (by norm_num : (1 : ℚ) < 2)).mp h2
    omega
  refine ⟨m * 2 ^ (e - (t - 52)).toNat, ?_⟩
  have : (2 : ℚ) ^ e = 2 ^ (e - (t - 52)).toNat * (2 : ℚ) ^ (t - 52) := by
    rw [← zpow_natCast, ← zpow_add₀ (by norm_num)]
    congr 1
    omega
  rw [this]
  push_cast
  ring

theorem fastRound_of {fl : ℚ → ℚ} {v : ℚ} {k : ℤ} (hk : 0 ≤ k) (h1 : (k : ℚ) ≤ fl (v + 1 / 2)) (h2 : fl (v + 1 / 2) < k + 1) : fastRound fl v = k := by
  have hk' : (0 : ℚ) ≤ k := by exact_mod_cast hk
  unfold fastRound trunc
  rw [if_pos (hk'.trans h1), Int.floor_eq_iff]
  exact ⟨h1, h2⟩

/-- On float64 values from -1/4 to 2^51, `fastRound` (util.go) and `math.Round` differ for one value only. -/
theorem round_agree {fl : ℚ → ℚ} (R : Rnd 53 fl) {v : ℚ} (h0 : -(1 / 4) ≤ v) (h1 : v ≤ 2 ^ 51) (hv : Rep 53 v) (hne : v ≠ belowHalf) :
    fastRound fl v = mathRound v := by
  have fixq : ∀ (m e : ℤ) (x : ℚ), |m| ≤ 2 ^ 53 → x = m * (2 : ℚ) ^ e → fl x = x := fun m e x hm hx => R.fix _ ⟨m, e, hm, hx⟩
  rcases lt_or_ge v 0 with hneg | hpos
  · have e1 : fl (1 / 4) = 1 / 4 := fixq 1 (-2) _ (by norm_num) (by norm_num)
    have e2 : fl (1 / 2) = 1 / 2 := fixq 1 (-1) _ (by norm_num) (by norm_num)
    have a := R.mono (1 / 4) (v + 1 / 2) (by linarith)
    have b := R.mono (v + 1 / 2) (1 / 2) (by linarith)
    rw [e1] at a
    rw [e2] at b
    have : mathRound v = 0 := by
      unfold mathRound
      rw [if_neg (by linarith)]
      have : ⌊-v + 1 / 2⌋ = 0 := by rw [Int.floor_eq_iff]; constructor <;> push_cast <;> linarith
      rw [this, neg_zero]
    rw [this]
    exact fastRound_of le_rfl (by push_cast; linarith) (by push_cast; linarith)
  have hm : mathRound v = ⌊v + 1 / 2⌋ := by unfold mathRound; rw [if_pos hpos]
  rw [hm]
  obtain ⟨k, hkdef⟩ : ∃ k, k = ⌊v + 1 / 2⌋ := ⟨_, rfl⟩
  rw [← hkdef]
  have k1 : (k : ℚ) ≤ v + 1 / 2 := hkdef ▸ Int.floor_le _
  have k2 : v + 1 / 2 < k + 1 := hkdef ▸ Int.lt_floor_add_one _
  have k0 : 0 ≤ k := hkdef ▸ Int.floor_nonneg.mpr (by linarith)
  have kb : k ≤ 2 ^ 51 := by
    have : (k : ℚ) < ((2 ^ 51 + 1 : ℤ) : ℚ) := by push_cast; linarith
    have : k < 2 ^ 51 + 1 := by exact_mod_cast this
    omega
  have fk : fl k = k := fixq k 0 _ (by rw [abs_of_nonneg k0]; omega) (by simp)
  refine fastRound_of k0 ?_ ?_
  · rw [← fk]; exact R.mono _ _ k1
  rcases le_or_gt v k with hle | hgt
  · have e : fl ((k : ℚ) + 1 / 2) = k + 1 / 2 := by
      refine fixq (2 * k + 1) (-1) _ (by rw [abs_of_nonneg (by omega)]; omega) ?_
      rw [zpow_neg_one]
      push_cast
      ring
    have := R.mono (v + 1 / 2) (k + 1 / 2) (by linarith)
    rw [e] at this
    linarith
  rcases eq_or_lt_of_le k0 with hk | hk
  · rw [← hk] at k2 ⊢
    push_cast at k2 ⊢
    rcases le_or_gt v (1 / 4) with hq | hq
    · have e : fl (3 / 4) = 3 / 4 := fixq 3 (-2) _ (by norm_num) (by norm_num)
      have := R.mono (v + 1 / 2) (3 / 4) (by linarith)
      rw [e] at this
      linarith
    · obtain ⟨n, hn⟩ := rep_multiple hv (t := -2) (by norm_num; linarith)
      norm_num at hn
      have n1 : n < 2 ^ 53 := by
        have : (n : ℚ) < ((2 ^ 53 : ℤ) : ℚ) := by push_cast; rw [hn] at k2; norm_num at k2 ⊢; linarith
        exact_mod_cast this
      have n2 : n ≠ 2 ^ 53 - 1 := by
        rintro rfl
        apply hne
        rw [hn, belowHalf]
        norm_num
      have n3 : (n : ℚ) ≤ 2 ^ 53 - 2 := by
        have : n ≤ 2 ^ 53 - 2 := by omega
        exact_mod_cast this
      have e : fl (1 - 1 / 2 ^ 53) = 1 - 1 / 2 ^ 53 := fixq (2 ^ 53 - 1) (-53) _ (by norm_num) (by norm_num)
      have := R.mono (v + 1 / 2) (1 - 1 / 2 ^ 53) (by rw [hn]; norm_num at n3 ⊢; linarith)
      rw [e] at this
      norm_num at this ⊢
      linarith
  · obtain ⟨K, rfl⟩ : ∃ K : ℕ, k = K := ⟨k.toNat, by omega⟩
    have K0 : K ≠ 0 := by omega
    set t := Nat.log 2 K with ht
    have t1 : 2 ^ t ≤ K := Nat.pow_log_le_self 2 K0
    have t2 : K < 2 ^ (t + 1) := Nat.lt_pow_succ_log_self (by norm_num) K
    have t3 : t ≤ 51 := by
      have : 2 ^ t ≤ 2 ^ 51 := t1.trans (by exact_mod_cast kb)
      exact (Nat.pow_le_pow_iff_right (by norm_num)).mp this
    have t1' : (2 : ℚ) ^ t ≤ K := by exact_mod_cast t1
    have t2' : (K : ℚ) + 1 ≤ 2 ^ (t + 1) := by exact_mod_cast t2
    push_cast at k2 hgt ⊢
    obtain ⟨n, hn⟩ := rep_multiple hv (t := (t : ℤ)) (by rw [zpow_natCast]; linarith)
    have half : (1 / 2 : ℚ) = ((2 ^ (51 - t) : ℤ) : ℚ) * (2 : ℚ) ^ ((t : ℤ) - 52) := by
      push_cast
      rw [← zpow_natCast, ← zpow_add₀ (by norm_num), one_div, ← zpow_neg_one]
      congr 1
      omega
    have sum : v + 1 / 2 = ((n + 2 ^ (51 - t) : ℤ) : ℚ) * (2 : ℚ) ^ ((t : ℤ) - 52) := by
      rw [half, hn]
      push_cast
      ring
    have p0 : (0 : ℚ) < (2 : ℚ) ^ ((t : ℤ) - 52) := by positivity
    have top : (2 : ℚ) ^ (t + 1) = ((2 ^ 53 : ℤ) : ℚ) * (2 : ℚ) ^ ((t : ℤ) - 52) := by
      have : ((2 ^ 53 : ℤ) : ℚ) = (2 : ℚ) ^ (53 : ℤ) := by norm_num
      rw [this, ← zpow_natCast, ← zpow_add₀ (by norm_num)]
      congr 1
      push_cast
      ring
    have N1 : n + 2 ^ (51 - t) < 2 ^ 53 := by
      have : ((n + 2 ^ (51 - t) : ℤ) : ℚ) < ((2 ^ 53 : ℤ) : ℚ) := by
        refine lt_of_mul_lt_mul_right ?_ p0.le
        rw [← sum, ← top]
        linarith
      exact_mod_cast this
    have N0 : 0 ≤ n + 2 ^ (51 - t) := by
      have : (0 : ℚ) ≤ ((n + 2 ^ (51 - t) : ℤ) : ℚ) := by
        refine le_of_mul_le_mul_right ?_ p0
        rw [← sum, zero_mul]
        linarith
      exact_mod_cast this
    have e : fl (v + 1 / 2) = v + 1 / 2 := fixq _ _ _ (by rw [abs_of_nonneg N0]; exact N1.le) sum
    rw [e]
    exact k2

/-- Without rounding the two agree on all values from -1/4. -/
theorem round_agree_id {fl : ℚ → ℚ} (hid : ∀ x, fl x = x) {v : ℚ} (h0 : -(1 / 4) ≤ v) : fastRound fl v = mathRound v := by
  unfold fastRound mathRound trunc
  rw [hid, if_pos (by linarith)]
  split_ifs with h
  · rfl
  · have a : ⌊v + 1 / 2⌋ = 0 := by rw [Int.floor_eq_iff]; constructor <;> push_cast <;> linarith
    have b : ⌊-v + 1 / 2⌋ = 0 := by rw [Int.floor_eq_iff]; constructor <;> push_cast <;> linarith
    rw [a, b, neg_zero]

end Verif.Small

import Verif.Incr.GridMain

/-!
# The float32 grid with IEEE rounding, up to 1925 pixels

Centres and radii below `2^13` have float32 errors of at most `2^-12`.  Larger ones occur, but then
either the margin is large, or the difference of the rounded numbers is a multiple of `2^-11`.
-/

namespace Verif.Incr

open Verif.Tri Verif.Float Verif.Spec

/-- The error below a power of two. -/
theorem rne_err_lt {q : ℚ} {e : ℕ} (h : |q| < 2 ^ e) : |rne 24 q - q| ≤ 2 ^ e / 2 ^ 25 := by
  by_cases h0 : q = 0
  · subst h0
    rw [rne_zero]
    simp
    positivity
  have hp : 0 < |q| := abs_pos.mpr h0
  refine (rne_abs 24 q).trans ?_
  obtain ⟨l1, _⟩ := log_bounds hp
  have hlt : (2 : ℚ) ^ Int.log 2 |q| < (2 : ℚ) ^ ((e : ℕ) : ℤ) := by
    rw [zpow_natCast]; exact l1.trans_lt h
  have hl : Int.log 2 |q| < (e : ℤ) := (zpow_lt_zpow_iff_right₀ (by norm_num)).mp hlt
  unfold ulp
  have : (2 : ℚ) ^ (Int.log 2 |q| - ((24 : ℕ) - 1 : ℤ)) ≤ (2 : ℚ) ^ ((e : ℤ) - 24) :=
    zpow_le_zpow_right₀ (by norm_num) (by push_cast; omega)
  have e2 : (2 : ℚ) ^ ((e : ℤ) - 24) = 2 ^ e / 2 ^ 24 := by
    rw [zpow_sub₀ (by norm_num), zpow_natCast]; norm_num
  rw [e2] at this
  calc _ ≤ (2 : ℚ) ^ e / 2 ^ 24 / 2 := by gcongr
    _ = _ := by ring

/-- Rounded numbers of at least `2^e` are multiples of `2^(e-23)`. -/
theorem rne_mult {q : ℚ} {e : ℕ} (h : 2 ^ e ≤ |q|) : ∃ m : ℤ, rne 24 q = m * ((2 : ℚ) ^ e / 2 ^ 23) := by
  have hp : 0 < |q| := lt_of_lt_of_le (by positivity) h
  obtain ⟨_, l2⟩ := log_bounds hp
  have hlt : (2 : ℚ) ^ ((e : ℕ) : ℤ) < (2 : ℚ) ^ (Int.log 2 |q| + 1) := by
    rw [zpow_natCast]; exact h.trans_lt l2
  have hl : (e : ℤ) < Int.log 2 |q| + 1 := (zpow_lt_zpow_iff_right₀ (by norm_num)).mp hlt
  obtain ⟨d, hd⟩ := Int.eq_ofNat_of_zero_le (show 0 ≤ Int.log 2 |q| - e by omega)
  refine ⟨rint (q / ulp 24 q) * 2 ^ d, ?_⟩
  unfold rne
  have : ulp 24 q = 2 ^ d * ((2 : ℚ) ^ e / 2 ^ 23) := by
    unfold ulp
    have : Int.log 2 |q| - ((24 : ℕ) - 1 : ℤ) = (d : ℤ) + e - 23 := by push_cast; omega
    rw [this, zpow_sub₀ (by norm_num), zpow_add₀ (by norm_num), zpow_natCast, zpow_natCast]
    norm_num
    ring
  rw [this]
  push_cast
  ring

/-- The float32 numbers of IEEE arithmetic are accurate enough up to 1925 pixels. -/
theorem axis_ieee {n : ℤ} (hn1 : 1 ≤ n) (hn : n ≤ 1925) : AxisOK ieee n := by
  intro x c R x0 x1 c1 c2 hR0 hR h1 h2
  have r32 : ieee.r32 = rne 24 := rfl
  rw [r32]
  have K : Rnd 24 (rne 24) := rne_rnd (by norm_num)
  have hx0 : (0 : ℚ) ≤ x := by exact_mod_cast x0
  have hx1 : (x : ℚ) ≤ n := by exact_mod_cast x1
  have hnq : (n : ℚ) ≤ 1925 := by exact_mod_cast hn
  have k1 : |rne 24 (1 / 1000) - 1 / 1000| ≤ 1 / 1000000 := (K.err _).trans (by norm_num [abs_of_pos])
  have k1 := abs_le.mp k1
  set k := rne 24 (1 / 1000)
  have e13 : ∀ q : ℚ, |q| < 8192 → |rne 24 q - q| ≤ 1 / 4096 := fun q hq =>
    (rne_err_lt (e := 13) (by norm_num; exact hq)).trans (by norm_num)
  have e14 : ∀ q : ℚ, |q| < 16384 → |rne 24 q - q| ≤ 1 / 2048 := fun q hq =>
    (rne_err_lt (e := 14) (by norm_num; exact hq)).trans (by norm_num)
  have ec := abs_le.mp (e14 c (abs_lt.mpr ⟨by linarith, by linarith⟩))
  have eR := abs_le.mp (e14 R (abs_lt.mpr ⟨by linarith, by linarith⟩))
  have erad := abs_le.mp (e14 (rne 24 R + k) (abs_lt.mpr ⟨by linarith, by linarith⟩))
  by_cases far : |c - x| + 1 ≤ R
  · -- a large margin
    have f1 := le_abs_self (c - x)
    have f2 := neg_abs_le (c - x)
    constructor
    · have : rne 24 c - rne 24 (rne 24 R + k) ≤ x - 1 / 2 := by linarith
      have m := K.mono _ _ this
      have e := abs_le.mp (e13 (x - 1 / 2) (abs_lt.mpr ⟨by linarith, by linarith⟩))
      linarith
    · have : (x : ℚ) + 1 / 2 ≤ rne 24 c + rne 24 (rne 24 R + k) := by linarith
      have m := K.mono _ _ this
      have e := abs_le.mp (e13 (x + 1 / 2) (abs_lt.mpr ⟨by linarith, by linarith⟩))
      linarith
  · have near := not_le.mp far
    have dc : |c - x| ≤ 17 / 4 * n + 9 := abs_le.mpr ⟨by linarith, by linarith⟩
    have eR := abs_le.mp (e13 R (abs_lt.mpr ⟨by linarith, by linarith⟩))
    have erad := abs_le.mp (e13 (rne 24 R + k) (abs_lt.mpr ⟨by linarith, by linarith⟩))
    constructor
    · by_cases big : c < 8192
      · have ec := abs_le.mp (e13 c (abs_lt.mpr ⟨by linarith, big⟩))
        have : rne 24 c - rne 24 (rne 24 R + k) ≤ x - 2565 / 10000000 := by norm_num at *; linarith
        have m := K.mono _ _ this
        have e := abs_le.mp (e13 (x - 2565 / 10000000) (abs_lt.mpr ⟨by linarith, by linarith⟩))
        norm_num at *
        linarith
      · have big := not_lt.mp big
        obtain ⟨m1, hm1⟩ := rne_mult (q := c) (e := 12) (by rw [abs_of_nonneg (by linarith)]; norm_num; linarith)
        obtain ⟨m2, hm2⟩ := rne_mult (q := rne 24 R + k) (e := 12) (by
          rw [abs_of_nonneg (by linarith)]; norm_num; linarith)
        have lt : rne 24 c - rne 24 (rne 24 R + k) < x := by norm_num at *; linarith
        have le : rne 24 c - rne 24 (rne 24 R + k) ≤ ((2048 * x - 1 : ℤ) : ℚ) * 2 ^ (-11 : ℤ) := by
          rw [hm1, hm2] at lt ⊢
          have h3 : ((m1 - m2 : ℤ) : ℚ) < ((2048 * x : ℤ) : ℚ) := by push_cast; norm_num at lt; linarith
          have h4 : m1 - m2 < 2048 * x := by exact_mod_cast h3
          have h5 : ((m1 - m2 : ℤ) : ℚ) ≤ ((2048 * x - 1 : ℤ) : ℚ) := by exact_mod_cast (by omega)
          push_cast at h5 ⊢
          norm_num
          linarith
        have m := K.mono _ _ le
        rw [K.fix _ ⟨2048 * x - 1, -11, by rw [abs_le]; constructor <;> omega, rfl⟩] at m
        refine m.trans ?_
        push_cast
        norm_num
        linarith
    · by_cases right : (x : ℚ) ≤ c
      · have m1 : (x : ℚ) ≤ rne 24 c := K.int_le (by rw [abs_le]; constructor <;> omega) right
        have m2 : k ≤ rne 24 (rne 24 R + k) := by
          have h0 : k ≤ rne 24 R + k := by linarith [K.nonneg hR0]
          have := K.mono _ _ h0
          rwa [show rne 24 k = k from K.fix _ (rne_rep 24 _)] at this
        have : (x : ℚ) + 999 / 1000000 ≤ rne 24 c + rne 24 (rne 24 R + k) := by linarith
        have m := K.mono _ _ this
        have e := abs_le.mp (e13 (x + 999 / 1000000) (abs_lt.mpr ⟨by linarith, by linarith⟩))
        norm_num at *
        linarith
      · have right := not_le.mp right
        have ec := abs_le.mp (e13 c (abs_lt.mpr ⟨by linarith, by linarith⟩))
        have : (x : ℚ) + 2565 / 10000000 ≤ rne 24 c + rne 24 (rne 24 R + k) := by norm_num at *; linarith
        have m := K.mono _ _ this
        have e := abs_le.mp (e13 (x + 2565 / 10000000) (abs_lt.mpr ⟨by linarith, by linarith⟩))
        norm_num at *
        linarith

/-- IEEE arithmetic, images up to 1925 pixels on the longer side. -/
theorem ieee_grid {w h : Nat} (k : SizeOk w h) (hn : side w h ≤ 1925) :
    GeoOK (gridGeo ieee w h) w h (fun _ => True) :=
  gridGeo_ok ieee_ok k (axis_ieee (by have := (side_bounds k).1; omega) (by exact_mod_cast hn))

/-- The limit 1925 is met with a side that the relative error alone does not cover. -/
example : AxisOK ieee 1925 ∧ ¬ (19 * ((1925 : ℤ) : ℚ) + 60) / 2 ^ 24 ≤ 97 / 100000 :=
  ⟨axis_ieee (by norm_num) (by norm_num), by norm_num⟩

end Verif.Incr

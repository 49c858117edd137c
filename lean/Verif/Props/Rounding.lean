import Verif.Incr.Grid
import Mathlib.Analysis.Real.Sqrt
import Mathlib.Data.Nat.Factorization.Basic
import Mathlib.Algebra.Order.Group.Unbundled.Abs
import Mathlib.Tactic.Linarith
import Mathlib.Tactic.Ring
import Mathlib.Tactic.Positivity

/-!
# C109: the arithmetic of the model is that of IEEE 754

Every float operation of the code (for example geom.go 69-93, triangles.go 39-160) is modelled by `rne 53`, `rne 24` and
`sqrt64` (`ieee`, Incr/Grid.lean).  Here these are shown to be rounding to the nearest number with ties to the even
significand, and the correctly rounded square root.
-/

namespace Verif.Props

open Verif.Float Verif.Incr

/-- The nearest integer, and the even one of two. -/
theorem rint_nearest (x : ℚ) (n : ℤ) : |(rint x : ℚ) - x| ≤ |(n : ℚ) - x| := by
  have h1 := Int.floor_le x
  have h2 := Int.lt_floor_add_one x
  rcases le_or_gt n ⌊x⌋ with h | h
  · have h' : (n : ℚ) ≤ ⌊x⌋ := by exact_mod_cast h
    rw [abs_of_nonpos (show (n : ℚ) - x ≤ 0 by linarith), abs_le]
    unfold rint
    simp only
    split_ifs <;> push_cast <;> constructor <;> linarith
  · have h' : (⌊x⌋ : ℚ) + 1 ≤ n := by exact_mod_cast h
    rw [abs_of_nonneg (show 0 ≤ (n : ℚ) - x by linarith), abs_le]
    unfold rint
    simp only
    split_ifs <;> push_cast <;> constructor <;> linarith

theorem rint_tie (x : ℚ) {n : ℤ} (hn : n ≠ rint x) (h : |(n : ℚ) - x| = |(rint x : ℚ) - x|) : Even (rint x) ∧ ¬ Even n := by
  have h1 := Int.floor_le x
  have h2 := Int.lt_floor_add_one x
  have r := rint_err x
  have key : n + rint x = 2 * ⌊x⌋ + 1 ∧ x - ⌊x⌋ = 1 / 2 := by
    rcases abs_eq_abs.mp h with e | e
    · exact absurd (by exact_mod_cast sub_left_injective e) hn
    · have e' : (n : ℚ) + rint x = 2 * x := by linarith
      rcases lt_trichotomy (x - ⌊x⌋) (1 / 2) with c | c | c
      · have : rint x = ⌊x⌋ := by unfold rint; simp only; rw [if_pos c]
        rw [this] at e' hn
        exfalso
        rcases lt_or_gt_of_ne hn with l | l
        · have : (n : ℚ) + 1 ≤ ⌊x⌋ := by exact_mod_cast l
          linarith
        · have : (⌊x⌋ : ℚ) + 1 ≤ n := by exact_mod_cast l
          linarith
      · refine ⟨?_, c⟩
        have : (n : ℚ) + rint x = 2 * ⌊x⌋ + 1 := by linarith
        exact_mod_cast this
      · have : rint x = ⌊x⌋ + 1 := by
          unfold rint; simp only; rw [if_neg (by linarith), if_pos c]
        rw [this] at e' hn
        push_cast at e'
        exfalso
        rcases lt_or_gt_of_ne hn with l | l
        · have : (n : ℚ) ≤ ⌊x⌋ := by exact_mod_cast Int.lt_add_one_iff.mp l
          linarith
        · have : (⌊x⌋ : ℚ) + 1 + 1 ≤ n := by exact_mod_cast l
          linarith
  obtain ⟨k, c⟩ := key
  have ev : Even (rint x) := by
    unfold rint
    simp only
    rw [if_neg (by linarith), if_neg (by linarith)]
    split_ifs with p
    · exact Int.even_iff.mpr p
    · exact Int.even_iff.mpr (by omega)
  refine ⟨ev, fun e => ?_⟩
  have := (e.add ev)
  rw [k, Int.even_iff] at this
  omega

/-- Above a power of two the numbers with a `p` bit significand are multiples of its spacing. -/
theorem rep_above {p : Nat} (hp : 1 ≤ p) {y : ℚ} (h : Rep p y) {k : ℤ} (hk : (2 : ℚ) ^ k ≤ y) :
    ∃ n : ℤ, y = n * (2 : ℚ) ^ (k - (p - 1 : ℤ)) := by
  have y0 : 0 < y := lt_of_lt_of_le (zpow_pos (by norm_num) _) hk
  have e := rne_fix hp h
  have l : k ≤ Int.log 2 y := by
    have := (log_bounds y0).2
    have := lt_of_le_of_lt hk this
    have := (zpow_lt_zpow_iff_right₀ (by norm_num : (1 : ℚ) < 2)).mp this
    omega
  obtain ⟨j, hj⟩ : ∃ j : Nat, (j : ℤ) = Int.log 2 y - k := ⟨(Int.log 2 y - k).toNat, by omega⟩
  refine ⟨rint (y / ulp p y) * 2 ^ j, ?_⟩
  conv_lhs => rw [← e]
  unfold rne
  have : ulp p y = 2 ^ j * (2 : ℚ) ^ (k - (p - 1 : ℤ)) := by
    unfold ulp
    rw [abs_of_pos y0, ← zpow_natCast, ← zpow_add₀ (by norm_num)]
    congr 1; omega
  push_cast
  rw [mul_assoc, ← this]

/-- A number is at most as near as one of the same binade. -/
theorem rep_clamp {p : Nat} (hp : 1 ≤ p) {y : ℚ} (h : Rep p y) (k : ℤ) {K : Type} [Field K] [LinearOrder K] [IsStrictOrderedRing K]
    {q : K} (q1 : (2 : K) ^ k ≤ q) (q2 : q ≤ (2 : K) ^ (k + 1)) :
    ∃ n : ℤ, 2 ^ (p - 1) ≤ n ∧ n ≤ 2 ^ p ∧ |(n : K) * (2 : K) ^ (k - (p - 1 : ℤ)) - q| ≤ |(y : K) - q| ∧
      (y ≠ n * (2 : ℚ) ^ (k - (p - 1 : ℤ)) → |(n : K) * (2 : K) ^ (k - (p - 1 : ℤ)) - q| < |(y : K) - q|) := by
  have two : (0 : K) < 2 := by norm_num
  have pw (e : ℕ) : (((2 : ℤ) ^ e : ℤ) : K) * (2 : K) ^ (k - (p - 1 : ℤ)) = (2 : K) ^ (k - (p - 1 : ℤ) + e) := by
    push_cast
    rw [← zpow_natCast, ← zpow_add₀ two.ne', add_comm]
  rcases lt_or_ge y ((2 : ℚ) ^ k) with a | a
  · have a' : (y : K) < (2 : K) ^ k := by
      have := (Rat.cast_lt (K := K)).mpr a
      rwa [Rat.cast_zpow, Rat.cast_ofNat] at this
    refine ⟨2 ^ (p - 1), le_refl _, pow_le_pow_right₀ (by norm_num) (by omega), ?_⟩
    rw [pw, show k - (p - 1 : ℤ) + ((p - 1 : ℕ) : ℤ) = k by omega, abs_of_nonpos (by linarith), abs_of_nonpos (by linarith)]
    exact ⟨by linarith, fun _ => by linarith⟩
  rcases lt_or_ge ((2 : ℚ) ^ (k + 1)) y with b | b
  · have b' : (2 : K) ^ (k + 1) < (y : K) := by
      have := (Rat.cast_lt (K := K)).mpr b
      rwa [Rat.cast_zpow, Rat.cast_ofNat] at this
    refine ⟨2 ^ p, pow_le_pow_right₀ (by norm_num) (by omega), le_refl _, ?_⟩
    rw [pw, show k - (p - 1 : ℤ) + (p : ℤ) = k + 1 by omega, abs_of_nonneg (by linarith), abs_of_nonneg (by linarith)]
    exact ⟨by linarith, fun _ => by linarith⟩
  · obtain ⟨n, hn⟩ := rep_above hp h a
    have u : (0 : ℚ) < (2 : ℚ) ^ (k - (p - 1 : ℤ)) := zpow_pos (by norm_num) _
    have pq (e : ℕ) : (((2 : ℤ) ^ e : ℤ) : ℚ) * (2 : ℚ) ^ (k - (p - 1 : ℤ)) = (2 : ℚ) ^ (k - (p - 1 : ℤ) + e) := by
      push_cast
      rw [← zpow_natCast, ← zpow_add₀ (by norm_num), add_comm]
    have a1 : (((2 : ℤ) ^ (p - 1) : ℤ) : ℚ) ≤ n := by
      refine le_of_mul_le_mul_right ?_ u
      rw [pq, ← hn, show k - (p - 1 : ℤ) + ((p - 1 : ℕ) : ℤ) = k by omega]
      exact a
    have b1 : (n : ℚ) ≤ (((2 : ℤ) ^ p : ℤ) : ℚ) := by
      refine le_of_mul_le_mul_right ?_ u
      rw [pq, ← hn, show k - (p - 1 : ℤ) + (p : ℤ) = k + 1 by omega]
      exact b
    refine ⟨n, by exact_mod_cast a1, by exact_mod_cast b1, ?_, fun h => absurd hn h⟩
    rw [hn]
    push_cast
    exact le_refl _

theorem nearest_pos {p : Nat} (hp : 1 ≤ p) {q y : ℚ} (q0 : 0 < q) (h : Rep p y) : |rne p q - q| ≤ |y - q| ∧
    (y ≠ rne p q → |y - q| = |rne p q - q| → ∃ m n e : ℤ, Even m ∧ 2 ^ (p - 1) ≤ m ∧ m ≤ 2 ^ p ∧ rne p q = m * (2 : ℚ) ^ e ∧
      ¬ Even n ∧ 2 ^ (p - 1) ≤ n ∧ n ≤ 2 ^ p ∧ y = n * (2 : ℚ) ^ e) := by
  obtain ⟨q1, q2⟩ := log_bounds q0
  obtain ⟨r1, r2⟩ := rne_range hp q0
  obtain ⟨n, m1, m2, n1, n2⟩ := rep_clamp hp h (Int.log 2 q) q1 q2.le
  have hu := ulp_pos p q
  have eu : ulp p q = (2 : ℚ) ^ (Int.log 2 q - (p - 1 : ℤ)) := by unfold ulp; rw [abs_of_pos q0]
  rw [← eu] at n1 n2
  simp only [Rat.cast_id] at n1 n2
  have scale (m : ℤ) : |(m : ℚ) * ulp p q - q| = |(m : ℚ) - q / ulp p q| * ulp p q := by
    rw [show (m : ℚ) * ulp p q - q = ((m : ℚ) - q / ulp p q) * ulp p q by
      rw [sub_mul, div_mul_cancel₀ _ hu.ne'], abs_mul, abs_of_pos hu]
  have near : |rne p q - q| ≤ |(n : ℚ) * ulp p q - q| := by
    unfold rne
    rw [scale, scale]
    exact mul_le_mul_of_nonneg_right (rint_nearest _ _) hu.le
  refine ⟨near.trans n1, fun ne tie => ?_⟩
  have ey : y = n * ulp p q := by
    by_contra c
    have := n2 c
    linarith
  have tie' : |(n : ℚ) - q / ulp p q| = |(rint (q / ulp p q) : ℚ) - q / ulp p q| := by
    rw [ey] at tie
    unfold rne at tie
    rw [scale, scale] at tie
    exact mul_right_cancel₀ hu.ne' tie
  have ne' : n ≠ rint (q / ulp p q) := by
    rintro rfl
    exact ne ey
  obtain ⟨ev, od⟩ := rint_tie _ ne' tie'
  have pw1 : (2 : ℚ) ^ Int.log 2 q = ((2 ^ (p - 1) : ℤ) : ℚ) * ulp p q := by
    rw [eu]; push_cast; rw [← zpow_natCast, ← zpow_add₀ (by norm_num)]; congr 1; omega
  have pw2 : (2 : ℚ) ^ (Int.log 2 q + 1) = ((2 ^ p : ℤ) : ℚ) * ulp p q := by
    rw [eu]; push_cast; rw [← zpow_natCast, ← zpow_add₀ (by norm_num)]; congr 1; omega
  rw [pw1] at r1
  rw [pw2] at r2
  exact ⟨rint (q / ulp p q), n, Int.log 2 q - (p - 1 : ℤ), ev, by exact_mod_cast le_of_mul_le_mul_right r1 hu,
    by exact_mod_cast le_of_mul_le_mul_right r2 hu, by rw [← eu]; rfl, od, m1, m2, by rw [← eu]; exact ey⟩

theorem rep_neg {p : Nat} {y : ℚ} (h : Rep p y) : Rep p (-y) := by
  obtain ⟨m, e, hm, rfl⟩ := h
  exact ⟨-m, e, by rwa [abs_neg], by push_cast; ring⟩

/-- C109: no number with a `p` bit significand is nearer to `q` than `rne p q`. -/
theorem c109_nearest {p : Nat} (hp : 1 ≤ p) (q : ℚ) : Rep p (rne p q) ∧ ∀ y, Rep p y → |rne p q - q| ≤ |y - q| := by
  refine ⟨rne_rep p q, fun y h => ?_⟩
  rcases lt_trichotomy q 0 with c | rfl | c
  · have := (nearest_pos hp (q := -q) (by linarith) (rep_neg h)).1
    rwa [rne_neg, ← neg_sub', abs_neg, ← neg_sub', abs_neg] at this
  · rw [rne_zero, sub_zero, abs_zero]; exact abs_nonneg _
  · exact (nearest_pos hp c h).1

/-- C109: of two numbers that are equally near, `rne p q` is the one whose significand of exactly `p` bits is even. -/
theorem c109_even {p : Nat} (hp : 1 ≤ p) {q y : ℚ} (h : Rep p y) (ne : y ≠ rne p q) (tie : |y - q| = |rne p q - q|) :
    ∃ m n e : ℤ, Even m ∧ 2 ^ (p - 1) ≤ |m| ∧ |m| ≤ 2 ^ p ∧ rne p q = m * (2 : ℚ) ^ e ∧
      ¬ Even n ∧ 2 ^ (p - 1) ≤ |n| ∧ |n| ≤ 2 ^ p ∧ y = n * (2 : ℚ) ^ e := by
  have pos {a : ℤ} (h : 2 ^ (p - 1) ≤ a) : |a| = a := abs_of_nonneg (le_trans (by positivity) h)
  rcases lt_trichotomy q 0 with c | rfl | c
  · obtain ⟨m, n, e, h1, h2, h3, h4, h5, h6, h7, h8⟩ := (nearest_pos hp (q := -q) (by linarith) (rep_neg h)).2
      (by rw [rne_neg]; exact fun e => ne (neg_injective e)) (by rw [rne_neg, ← neg_sub', abs_neg, ← neg_sub', abs_neg]; exact tie)
    refine ⟨-m, -n, e, h1.neg, by rwa [abs_neg, pos h2], by rwa [abs_neg, pos h2], ?_, by rwa [even_neg], by rwa [abs_neg, pos h6],
      by rwa [abs_neg, pos h6], ?_⟩
    · rw [rne_neg] at h4; push_cast; linarith
    · push_cast; linarith
  · rw [rne_zero] at ne tie
    simp only [sub_zero, abs_zero, abs_eq_zero] at tie
    exact absurd tie ne
  · obtain ⟨m, n, e, h1, h2, h3, h4, h5, h6, h7, h8⟩ := (nearest_pos hp c h).2 ne tie
    exact ⟨m, n, e, h1, by rwa [pos h2], by rwa [pos h2], h4, h5, by rwa [pos h6], by rwa [pos h6], h8⟩

/-- C109: these two facts determine the rounding. -/
theorem c109_unique {p : Nat} (hp : 2 ≤ p) {q r : ℚ} (hr : Rep p r) (near : ∀ y, Rep p y → |r - q| ≤ |y - q|)
    (even : ∀ y, Rep p y → y ≠ r → |y - q| = |r - q| →
      ∃ m e : ℤ, Even m ∧ 2 ^ (p - 1) ≤ |m| ∧ |m| ≤ 2 ^ p ∧ r = m * (2 : ℚ) ^ e) : r = rne p q := by
  by_contra ne
  obtain ⟨n1, n2⟩ := c109_nearest (show 1 ≤ p by omega) q
  have tie : |r - q| = |rne p q - q| := le_antisymm (near _ n1) (n2 _ hr)
  obtain ⟨m, e, a1, a2, a3, a4⟩ := even _ n1 (Ne.symm ne) tie.symm
  obtain ⟨_, n, f, -, -, -, -, b1, b2, b3, b4⟩ := c109_even (by omega) hr ne tie
  have two (a b : ℤ) (c : ℕ) (e f : ℤ) (h : e = f + c) (k : (a : ℚ) * 2 ^ e = b * 2 ^ f) : b = a * 2 ^ c := by
    rw [h, zpow_add₀ (by norm_num), zpow_natCast] at k
    have : (b : ℚ) = a * 2 ^ c := by
      refine mul_right_cancel₀ (zpow_pos (by norm_num : (0 : ℚ) < 2) f).ne' ?_
      rw [← k]; ring
    exact_mod_cast this
  rcases le_or_gt f e with c | c
  · have := two m n (e - f).toNat e f (by omega) (by rw [← a4, b4])
    exact b1 (this ▸ a1.mul_right _)
  · have k := two n m (f - e).toNat f e (by omega) (by rw [← a4, b4])
    obtain ⟨j, hj⟩ : ∃ j, (f - e).toNat = j + 1 := ⟨(f - e).toNat - 1, by omega⟩
    rw [k, hj, abs_mul, abs_of_pos (show (0 : ℤ) < 2 ^ (j + 1) by positivity)] at a3
    have o : (2 : ℤ) ^ (p - 1) ≠ |n| := by
      intro h
      apply b1
      rw [← even_abs, ← h, show p - 1 = (p - 2) + 1 by omega, pow_succ]
      exact even_two.mul_left _
    have l : (2 : ℤ) ^ (p - 1) < |n| := lt_of_le_of_ne b2 o
    have g : (2 : ℤ) ≤ 2 ^ (j + 1) := by
      have : (1 : ℤ) ≤ 2 ^ j := one_le_pow₀ (by norm_num)
      rw [pow_succ]; linarith
    have s : (2 : ℤ) ^ p = 2 ^ (p - 1) * 2 := by rw [← pow_succ]; congr 1; omega
    nlinarith

/-- The finite numbers of a binary format of IEEE 754: significands of less than `p` bits with exponents from `lo` to `hi`.
float64 is 53, -1074, 971 and float32 is 24, -149, 104. -/
def IsFloat (p : Nat) (lo hi : ℤ) (x : ℚ) : Prop := ∃ m e : ℤ, |m| < 2 ^ p ∧ lo ≤ e ∧ e ≤ hi ∧ x = m * (2 : ℚ) ^ e

theorem IsFloat.rep {p : Nat} {lo hi : ℤ} {x : ℚ} (h : IsFloat p lo hi x) : Rep p x := by
  obtain ⟨m, e, h1, -, -, h2⟩ := h
  exact ⟨m, e, h1.le, h2⟩

/-- C109: if `q` is zero, or at least the least normal number and at most the largest number of a format, then `rne p q` is a
number of the format, so that it is what IEEE 754 prescribes. -/
theorem c109_format {p : Nat} (hp : 1 ≤ p) {lo hi : ℤ} {q : ℚ}
    (h : q = 0 ∧ lo ≤ hi ∨ (2 : ℚ) ^ (lo + (p - 1 : ℤ)) ≤ |q| ∧ |q| ≤ (2 ^ p - 1) * (2 : ℚ) ^ hi) :
    IsFloat p lo hi (rne p q) ∧ ∀ y, IsFloat p lo hi y → |rne p q - q| ≤ |y - q| := by
  refine ⟨?_, fun y hy => (c109_nearest hp q).2 y hy.rep⟩
  rcases h with ⟨rfl, c⟩ | ⟨h1, h2⟩
  · rw [rne_zero]
    exact ⟨0, lo, by rw [abs_zero]; positivity, le_refl _, c, by simp⟩
  wlog q0 : 0 ≤ q generalizing q
  · obtain ⟨m, e, a1, a2, a3, a4⟩ := this (q := -q) (by rwa [abs_neg]) (by rwa [abs_neg]) (by linarith)
    exact ⟨-m, e, by rwa [abs_neg], a2, a3, by rw [rne_neg] at a4; push_cast; linarith⟩
  rw [abs_of_nonneg q0] at h1 h2
  have q0 : 0 < q := lt_of_lt_of_le (zpow_pos (by norm_num) _) h1
  obtain ⟨l1, l2⟩ := log_bounds q0
  obtain ⟨r1, r2⟩ := rne_range hp q0
  have hu := ulp_pos p q
  have eu : ulp p q = (2 : ℚ) ^ (Int.log 2 q - (p - 1 : ℤ)) := by unfold ulp; rw [abs_of_pos q0]
  have pw2 : (2 : ℚ) ^ (Int.log 2 q + 1) = ((2 ^ p : ℤ) : ℚ) * ulp p q := by
    rw [eu]; push_cast; rw [← zpow_natCast, ← zpow_add₀ (by norm_num)]; congr 1; omega
  have lt := fun {a b : ℤ} => zpow_lt_zpow_iff_right₀ (a := (2 : ℚ)) (m := a) (n := b) (by norm_num)
  have k1 : lo + (p - 1 : ℤ) < Int.log 2 q + 1 := lt.mp (h1.trans_lt l2)
  have big : ((2 : ℚ) ^ p - 1) * (2 : ℚ) ^ hi < (2 : ℚ) ^ (p + hi) := by
    rw [zpow_add₀ (by norm_num), zpow_natCast]
    have := zpow_pos (by norm_num : (0 : ℚ) < 2) hi
    linarith
  have k2 : Int.log 2 q < p + hi := lt.mp ((l1.trans h2).trans_lt big)
  have top : rne p q ≤ (2 ^ p - 1) * (2 : ℚ) ^ hi := by
    have f := rne_fix hp (x := (2 ^ p - 1) * (2 : ℚ) ^ hi) ⟨2 ^ p - 1, hi, by
      have : (1 : ℤ) ≤ 2 ^ p := one_le_pow₀ (by norm_num)
      rw [abs_of_nonneg (by linarith)]; linarith, by push_cast; ring⟩
    rw [← f]
    exact rne_mono hp h2
  have n0 : 0 ≤ rint (q / ulp p q) := by
    have : 0 ≤ rne p q := rne_nonneg hp q0.le
    unfold rne at this
    have := nonneg_of_mul_nonneg_left this hu
    exact_mod_cast this
  have n2 : rint (q / ulp p q) ≤ 2 ^ p := by
    rw [pw2] at r2
    exact_mod_cast le_of_mul_le_mul_right r2 hu
  rcases n2.lt_or_eq with c | c
  · exact ⟨rint (q / ulp p q), Int.log 2 q - (p - 1 : ℤ), by rwa [abs_of_nonneg n0], by omega, by omega, by rw [← eu]; rfl⟩
  · have e : rne p q = (2 : ℚ) ^ (Int.log 2 q + 1) := by rw [pw2, ← c]; rfl
    have k3 : Int.log 2 q + 1 < p + hi := by
      rw [e] at top
      exact lt.mp (top.trans_lt big)
    refine ⟨2 ^ (p - 1), Int.log 2 q + 1 - (p - 1 : ℤ), ?_, by omega, by omega, ?_⟩
    · rw [abs_of_pos (by positivity)]
      exact pow_lt_pow_right₀ (by norm_num) (by omega)
    · rw [e]
      push_cast
      rw [← zpow_natCast, ← zpow_add₀ (by norm_num)]
      congr 1; omega

/-- C109 for the operations of the model: float64 and float32. -/
theorem c109_ieee (q : ℚ) (h : 1 / 2 ^ 126 ≤ |q| ∧ |q| ≤ 2 ^ 127) :
    (IsFloat 53 (-1074) 971 (ieee.r64 q) ∧ ∀ y, IsFloat 53 (-1074) 971 y → |ieee.r64 q - q| ≤ |y - q|) ∧
    IsFloat 24 (-149) 104 (ieee.r32 q) ∧ ∀ y, IsFloat 24 (-149) 104 y → |ieee.r32 q - q| ≤ |y - q| := by
  obtain ⟨h1, h2⟩ := h
  have lo : (2 : ℚ) ^ (-1022 : ℤ) ≤ 1 / 2 ^ 126 := by
    rw [show (1 / 2 ^ 126 : ℚ) = (2 : ℚ) ^ (-126 : ℤ) by norm_num]
    exact zpow_le_zpow_right₀ (by norm_num) (by norm_num)
  have hi : (2 : ℚ) ^ 127 ≤ (2 ^ 53 - 1) * (2 : ℚ) ^ (971 : ℤ) := by
    have : (2 : ℚ) ^ (127 : ℤ) ≤ (2 : ℚ) ^ (971 : ℤ) := zpow_le_zpow_right₀ (by norm_num) (by norm_num)
    have p : (0 : ℚ) < (2 : ℚ) ^ (971 : ℤ) := zpow_pos (by norm_num) _
    generalize (2 : ℚ) ^ (971 : ℤ) = t at this p ⊢
    norm_num at this ⊢
    linarith
  exact ⟨c109_format (by norm_num) (Or.inr ⟨lo.trans h1, h2.trans hi⟩),
    c109_format (by norm_num) (Or.inr ⟨le_trans (by norm_num) h1, h2.trans (by norm_num)⟩)⟩

-- 2^53 + 1 is halfway between two numbers; a tenth as float64 and as float32.
example : rne 53 (2 ^ 53 + 1) = 2 ^ 53 ∧ rne 53 (2 ^ 53 + 3) = 2 ^ 53 + 4 := by decide +kernel
example : IsFloat 53 (-1074) 971 (rne 53 (1 / 10)) ∧ IsFloat 24 (-149) 104 (rne 24 (1 / 10)) :=
  ⟨(c109_format (by norm_num) (Or.inr ⟨by decide +kernel, by decide +kernel⟩)).1,
    (c109_format (by norm_num) (Or.inr ⟨by norm_num [abs_of_pos], by norm_num [abs_of_pos]⟩)).1⟩
example : (1 / 10 : ℚ) ≠ rne 53 (1 / 10) ∧ (2 ^ 53 + 2 : ℚ) ≠ rne 53 (2 ^ 53 + 1) ∧
    |(2 ^ 53 + 2 : ℚ) - (2 ^ 53 + 1)| = |rne 53 (2 ^ 53 + 1) - (2 ^ 53 + 1)| := by decide +kernel

/-- What `sqrt64` rounds, against the square root: they are on the same side of every multiple of `2 ^ -k`. -/
theorem sqrt64_sticky {x : ℚ} (hpos : 0 < x) : ∃ (k : ℤ) (z : ℚ), sqrt64 x = rne 53 z ∧ (2 : ℚ) ^ 59 ≤ z * (2 : ℚ) ^ k ∧
    ∀ N : ℤ, ((N : ℚ) ≤ z * (2 : ℚ) ^ k → (N : ℝ) ≤ √(x : ℝ) * (2 : ℝ) ^ k) ∧
      (z * (2 : ℚ) ^ k ≤ N → √(x : ℝ) * (2 : ℝ) ^ k ≤ N) := by
  unfold sqrt64
  rw [if_neg (not_le.mpr hpos)]
  simp only
  set k : ℤ := 60 - Int.log 2 x / 2 with hk
  set X : ℚ := x * (4 : ℚ) ^ k with hX
  set s : ℕ := Nat.sqrt ⌊X⌋₊ with hs
  set y : ℚ := if (s : ℚ) ^ 2 = X then (s : ℚ) else s + 1 / 2 with hy
  have h4 : (4 : ℚ) ^ k = ((2 : ℚ) ^ k) ^ 2 := by
    rw [show (4 : ℚ) = 2 * 2 by norm_num, mul_zpow]; ring
  have h2k : (0 : ℚ) < (2 : ℚ) ^ k := zpow_pos (by norm_num) _
  have hXpos : 0 < X := by rw [hX, h4]; positivity
  have hXbig : (2 : ℚ) ^ 120 ≤ X := by
    have h1 := (log_bounds hpos).1
    rw [hX]
    have : (4 : ℚ) ^ k = (2 : ℚ) ^ (2 * k) := by
      rw [zpow_mul]; norm_num
    rw [this]
    calc (2 : ℚ) ^ 120 = (2 : ℚ) ^ (120 : ℤ) := by norm_num
      _ ≤ (2 : ℚ) ^ (Int.log 2 x + 2 * k) := zpow_le_zpow_right₀ (by norm_num) (by omega)
      _ = (2 : ℚ) ^ Int.log 2 x * (2 : ℚ) ^ (2 * k) := zpow_add₀ (by norm_num) _ _
      _ ≤ x * (2 : ℚ) ^ (2 * k) := mul_le_mul_of_nonneg_right h1 (zpow_pos (by norm_num) _).le
  have hs1 : (s : ℚ) ^ 2 ≤ X := by
    have h1 : s * s ≤ ⌊X⌋₊ := Nat.sqrt_le _
    have h2 : ((⌊X⌋₊ : ℕ) : ℚ) ≤ X := Nat.floor_le hXpos.le
    have h3 : ((s * s : ℕ) : ℚ) ≤ ((⌊X⌋₊ : ℕ) : ℚ) := by exact_mod_cast h1
    push_cast at h3
    nlinarith
  have hs2 : X < ((s : ℚ) + 1) ^ 2 := by
    have h1 : ⌊X⌋₊ < (s + 1) * (s + 1) := Nat.lt_succ_sqrt _
    have h2 := Nat.lt_floor_add_one X
    have h3 : ((⌊X⌋₊ : ℕ) : ℚ) + 1 ≤ (((s + 1) * (s + 1) : ℕ) : ℚ) := by exact_mod_cast h1
    push_cast at h3
    nlinarith
  have hsbig : (2 : ℚ) ^ 59 ≤ s := by
    by_contra hn
    have hn := not_le.mp hn
    have : ((s : ℚ) + 1) ^ 2 ≤ (2 ^ 59 + 1) ^ 2 := by gcongr
    norm_num at *
    linarith
  have eT : √(x : ℝ) * (2 : ℝ) ^ k = √(X : ℝ) := by
    have e : (X : ℝ) = (x : ℝ) * ((2 : ℝ) ^ k) ^ 2 := by
      rw [hX, h4]; push_cast; rfl
    rw [e, Real.sqrt_mul (by exact_mod_cast hpos.le), Real.sqrt_sq (zpow_pos (by norm_num) _).le]
  have t1 : (s : ℝ) ≤ √(X : ℝ) := Real.le_sqrt_of_sq_le (by exact_mod_cast hs1)
  have t2 : √(X : ℝ) < (s : ℝ) + 1 := by
    rw [Real.sqrt_lt' (by positivity)]
    exact_mod_cast hs2
  have ys : (s : ℚ) ≤ y := by
    rw [hy]; split <;> linarith
  refine ⟨k, y / (2 : ℚ) ^ k, rfl, ?_, fun N => ?_⟩
  · rw [div_mul_cancel₀ _ h2k.ne']; exact hsbig.trans ys
  rw [div_mul_cancel₀ _ h2k.ne', eT]
  by_cases c : (s : ℚ) ^ 2 = X
  · have ey : y = s := by rw [hy, if_pos c]
    have et : √(X : ℝ) = s := by
      rw [← c]; push_cast; exact Real.sqrt_sq (by positivity)
    rw [ey, et]
    exact ⟨fun h => by exact_mod_cast h, fun h => by exact_mod_cast h⟩
  · have ey : y = s + 1 / 2 := by rw [hy, if_neg c]
    rw [ey]
    constructor
    · intro h
      have : N ≤ s := by
        by_contra n
        have : (s : ℤ) + 1 ≤ N := by omega
        have : (s : ℚ) + 1 ≤ N := by exact_mod_cast this
        linarith
      exact le_trans (by exact_mod_cast this) t1
    · intro h
      have : (s : ℤ) + 1 ≤ N := by
        by_contra n
        have : N ≤ s := by omega
        have : (N : ℚ) ≤ s := by exact_mod_cast this
        linarith
      exact t2.le.trans (by exact_mod_cast this)

theorem nearer_hi {K : Type} [Field K] [LinearOrder K] [IsStrictOrderedRing K] {a b t : K} (h : a < b) :
    |b - t| ≤ |a - t| ↔ a + b ≤ 2 * t := by
  rw [← sq_le_sq]
  constructor <;> intro k <;> nlinarith

theorem nearer_lo {K : Type} [Field K] [LinearOrder K] [IsStrictOrderedRing K] {a b t : K} (h : a < b) :
    |a - t| ≤ |b - t| ↔ 2 * t ≤ a + b := by
  rw [← sq_le_sq]
  constructor <;> intro k <;> nlinarith

/-- C109: no number with a 53 bit significand is nearer to the square root than `sqrt64`. -/
theorem c109_sqrt {x : ℚ} (hx : 0 ≤ x) {w : ℚ} (hw : Rep 53 w) : |(sqrt64 x : ℝ) - √(x : ℝ)| ≤ |(w : ℝ) - √(x : ℝ)| := by
  rcases hx.eq_or_lt with rfl | hpos
  · have : sqrt64 0 = 0 := by unfold sqrt64; simp
    rw [this]
    simp only [Rat.cast_zero, Real.sqrt_zero, sub_zero, abs_zero]
    exact abs_nonneg _
  obtain ⟨k, z, e, big, st⟩ := sqrt64_sticky hpos
  have p2 : (0 : ℚ) < (2 : ℚ) ^ k := zpow_pos (by norm_num) _
  have p2r : (0 : ℝ) < (2 : ℝ) ^ k := zpow_pos (by norm_num) _
  have z0 : 0 < z := pos_of_mul_pos_left (lt_of_lt_of_le (by norm_num) big) p2.le
  obtain ⟨l1, l2⟩ := log_bounds z0
  set L := Int.log 2 z with hL
  have Lk : 59 ≤ L + k := by
    have : (2 : ℚ) ^ (59 : ℤ) < (2 : ℚ) ^ (L + 1 + k) := by
      rw [zpow_add₀ (by norm_num)]
      exact lt_of_le_of_lt (by exact_mod_cast big) (mul_lt_mul_of_pos_right l2 p2)
    have := (zpow_lt_zpow_iff_right₀ (by norm_num : (1 : ℚ) < 2)).mp this
    omega
  set S := √(x : ℝ) with hS
  -- comparison with multiples of half the spacing
  have cmp (M : ℤ) : ((M : ℚ) * (2 : ℚ) ^ (L - 53) ≤ z → (M : ℝ) * (2 : ℝ) ^ (L - 53) ≤ S) ∧
      (z ≤ (M : ℚ) * (2 : ℚ) ^ (L - 53) → S ≤ (M : ℝ) * (2 : ℝ) ^ (L - 53)) := by
    obtain ⟨j, hj⟩ : ∃ j : ℕ, (j : ℤ) = L - 53 + k := ⟨(L - 53 + k).toNat, by omega⟩
    obtain ⟨s1, s2⟩ := st (M * 2 ^ j)
    have eq : ((M * 2 ^ j : ℤ) : ℚ) = (M : ℚ) * (2 : ℚ) ^ (L - 53) * (2 : ℚ) ^ k := by
      rw [mul_assoc, ← zpow_add₀ (by norm_num), ← hj, zpow_natCast]; push_cast; rfl
    have er : ((M * 2 ^ j : ℤ) : ℝ) = (M : ℝ) * (2 : ℝ) ^ (L - 53) * (2 : ℝ) ^ k := by
      rw [mul_assoc, ← zpow_add₀ (by norm_num), ← hj, zpow_natCast]; push_cast; rfl
    rw [eq, er] at s1 s2
    exact ⟨fun h => le_of_mul_le_mul_right (s1 (mul_le_mul_of_nonneg_right h p2.le)) p2r,
      fun h => le_of_mul_le_mul_right (s2 (mul_le_mul_of_nonneg_right h p2.le)) p2r⟩
  have half {K : Type} [Field K] [LinearOrder K] [IsStrictOrderedRing K] : (2 : K) ^ (L - (((53 : ℕ) : ℤ) - 1)) = 2 * (2 : K) ^ (L - 53) := by
    rw [show L - (((53 : ℕ) : ℤ) - 1) = (L - 53) + 1 by push_cast; ring, zpow_add₀ (by norm_num), zpow_one, mul_comm]
  set v : ℝ := (2 : ℝ) ^ (L - 53) with hv
  set vq : ℚ := (2 : ℚ) ^ (L - 53) with hvq
  have v0 : 0 < v := zpow_pos (by norm_num) _
  have vq0 : 0 < vq := zpow_pos (by norm_num) _
  have ends (j : ℕ) : (2 : ℚ) ^ (L - 53 + j) = ((2 ^ j : ℤ) : ℚ) * vq ∧ (2 : ℝ) ^ (L - 53 + j) = ((2 ^ j : ℤ) : ℝ) * v := by
    constructor <;> rw [zpow_add₀ (by norm_num), zpow_natCast] <;> push_cast <;> ring
  have S1 : (2 : ℝ) ^ L ≤ S := by
    rw [show L = L - 53 + (53 : ℕ) by push_cast; ring, (ends 53).2]
    refine (cmp _).1 ?_
    rw [← (ends 53).1, show L - 53 + (53 : ℕ) = L by push_cast; ring]
    exact l1
  have S2 : S ≤ (2 : ℝ) ^ (L + 1) := by
    rw [show L + 1 = L - 53 + (54 : ℕ) by push_cast; ring, (ends 54).2]
    refine (cmp _).2 ?_
    rw [← (ends 54).1, show L - 53 + (54 : ℕ) = L + 1 by push_cast; ring]
    exact l2.le
  obtain ⟨n, -, -, n1, -⟩ := rep_clamp (p := 53) (by norm_num) hw L S1 S2
  have eu : ulp 53 z = 2 * vq := by
    unfold ulp; rw [abs_of_pos z0, ← hL]; exact half
  set m := rint (z / ulp 53 z) with hm
  have er : sqrt64 x = m * (2 * vq) := by rw [e]; unfold rne; rw [← hm, eu]
  have cv : (vq : ℝ) = v := by rw [hvq, hv]; push_cast; rfl
  have err : (sqrt64 x : ℝ) = m * (2 * v) := by rw [er]; push_cast; rw [cv]
  have half' : (2 : ℝ) ^ (L - (((53 : ℕ) : ℤ) - 1)) = 2 * v := by exact half
  rw [half'] at n1
  have near := rint_nearest (z / ulp 53 z) n
  rw [← hm, eu] at near
  have zz : z / (2 * vq) * (2 * vq) = z := div_mul_cancel₀ _ (by positivity)
  set zu := z / (2 * vq) with hzu
  rw [err]
  refine le_trans ?_ n1
  rcases lt_trichotomy n m with c | c | c
  · have c' : (n : ℚ) < m := by exact_mod_cast c
    have l := (nearer_hi c').mp near
    have := (cmp (n + m)).1 (by push_cast; nlinarith)
    push_cast at this
    refine (nearer_hi ?_).mpr (by linarith)
    exact mul_lt_mul_of_pos_right (by exact_mod_cast c) (by positivity)
  · rw [c]
  · have c' : (m : ℚ) < n := by exact_mod_cast c
    have l := (nearer_lo c').mp near
    have := (cmp (m + n)).2 (by push_cast; nlinarith)
    push_cast at this
    refine (nearer_lo ?_).mpr (by linarith)
    exact mul_lt_mul_of_pos_right (by exact_mod_cast c) (by positivity)

/-- A square with a `p` bit significand has a root with a `p` bit significand, if the root is a binary fraction. -/
theorem rep_root {p : Nat} {c : ℚ} {m e : ℤ} (hc : c = m * (2 : ℚ) ^ e) (h : Rep p (c ^ 2)) : Rep p c := by
  rcases eq_or_ne m 0 with rfl | m0
  · exact ⟨0, 0, by simp, by simp [hc]⟩
  obtain ⟨k, o, ho, hk⟩ := Nat.exists_eq_two_pow_mul_odd (n := m.natAbs) (by simpa using m0)
  obtain ⟨a, b, ha, hb⟩ := h
  have key : |c| = (o : ℚ) * (2 : ℚ) ^ (e + k) := by
    rw [hc, abs_mul, abs_of_pos (zpow_pos (by norm_num : (0 : ℚ) < 2) e)]
    have : |(m : ℚ)| = ((2 ^ k * o : ℕ) : ℚ) := by rw [← hk, Nat.cast_natAbs, Int.cast_abs]
    rw [this, zpow_add₀ (by norm_num), zpow_natCast]
    push_cast
    ring
  have sq : ((o ^ 2 : ℕ) : ℚ) * (2 : ℚ) ^ (2 * (e + k)) = a * (2 : ℚ) ^ b := by
    rw [← hb, ← sq_abs, key, mul_pow, two_mul, zpow_add₀ (by norm_num)]
    push_cast
    ring
  have le : ((o ^ 2 : ℕ) : ℤ) ≤ 2 ^ p := by
    have a0 : 0 ≤ a := by
      have : (0 : ℚ) ≤ a * (2 : ℚ) ^ b := by rw [← sq]; positivity
      have := nonneg_of_mul_nonneg_left this (zpow_pos (by norm_num) _)
      exact_mod_cast this
    rw [abs_of_nonneg a0] at ha
    refine le_trans ?_ ha
    rcases le_total b (2 * (e + k)) with l | l
    · obtain ⟨j, hj⟩ : ∃ j : ℕ, (j : ℤ) = 2 * (e + k) - b := ⟨(2 * (e + k) - b).toNat, by omega⟩
      have : ((o ^ 2 : ℕ) : ℚ) * 2 ^ j = a := by
        refine mul_right_cancel₀ (zpow_pos (by norm_num : (0 : ℚ) < 2) b).ne' ?_
        rw [← sq, mul_assoc, ← zpow_natCast, ← zpow_add₀ (by norm_num)]
        congr 2; omega
      have : ((o ^ 2 : ℕ) : ℤ) * 2 ^ j = a := by exact_mod_cast this
      rw [← this]
      exact le_mul_of_one_le_right (by positivity) (one_le_pow₀ (by norm_num))
    · obtain ⟨j, hj⟩ : ∃ j : ℕ, (j : ℤ) = b - 2 * (e + k) := ⟨(b - 2 * (e + k)).toNat, by omega⟩
      have : ((o ^ 2 : ℕ) : ℚ) = a * 2 ^ j := by
        refine mul_right_cancel₀ (zpow_pos (by norm_num : (0 : ℚ) < 2) (2 * (e + k))).ne' ?_
        rw [sq, mul_assoc, ← zpow_natCast, ← zpow_add₀ (by norm_num)]
        congr 2; omega
      have t : ((o ^ 2 : ℕ) : ℤ) = a * 2 ^ j := by exact_mod_cast this
      rcases j with _ | j
      · rw [t]; simp
      · exfalso
        have : Even ((o ^ 2 : ℕ) : ℤ) := by
          rw [t, pow_succ, ← mul_assoc]; exact even_two.mul_left _
        rw [Int.even_coe_nat] at this
        exact Nat.not_even_iff_odd.mpr ho.pow this
  have lo : (o : ℤ) ≤ 2 ^ p := by
    refine le_trans ?_ le
    have : o ≤ o ^ 2 := Nat.le_self_pow (by norm_num) o
    exact_mod_cast this
  rcases abs_choice c with s | s
  · exact ⟨o, e + k, by rwa [abs_of_nonneg (by positivity)], by rw [← s, key]; push_cast; rfl⟩
  · exact ⟨-o, e + k, by rwa [abs_neg, abs_of_nonneg (by positivity)], by rw [s] at key; push_cast; linarith⟩

/-- C109: if `x` is a float64 then all numbers with a 53 bit significand but `sqrt64 x` are further from the square root. -/
theorem c109_sqrt_strict {x w : ℚ} (hx : 0 ≤ x) (rx : Rep 53 x) (hw : Rep 53 w) (ne : w ≠ sqrt64 x) :
    |(sqrt64 x : ℝ) - √(x : ℝ)| < |(w : ℝ) - √(x : ℝ)| := by
  refine lt_of_le_of_ne (c109_sqrt hx hw) fun tie => ?_
  rcases abs_eq_abs.mp tie with e | e
  · exact ne (by exact_mod_cast (sub_left_injective e).symm)
  have hr : Rep 53 (sqrt64 x) := by
    unfold sqrt64
    split
    · exact ⟨0, 0, by simp, by simp⟩
    · exact rne_rep _ _
  have mid : (((sqrt64 x + w) / 2 : ℚ) : ℝ) = √(x : ℝ) := by push_cast; linarith
  have sq : ((sqrt64 x + w) / 2) ^ 2 = x := by
    have : ((((sqrt64 x + w) / 2) ^ 2 : ℚ) : ℝ) = x := by
      rw [Rat.cast_pow, mid, Real.sq_sqrt (by exact_mod_cast hx)]
    exact_mod_cast this
  obtain ⟨m1, e1, -, h1⟩ := hr
  obtain ⟨m2, e2, -, h2⟩ := id hw
  have dy : ∃ m e : ℤ, (sqrt64 x + w) / 2 = m * (2 : ℚ) ^ e := by
    rcases le_total e1 e2 with l | l
    · obtain ⟨j, hj⟩ : ∃ j : ℕ, e2 = e1 + j := ⟨(e2 - e1).toNat, by omega⟩
      refine ⟨m1 + m2 * 2 ^ j, e1 - 1, ?_⟩
      rw [h1, h2, hj, zpow_add₀ (by norm_num), zpow_sub₀ (by norm_num), zpow_natCast, zpow_one]
      push_cast; ring
    · obtain ⟨j, hj⟩ : ∃ j : ℕ, e1 = e2 + j := ⟨(e1 - e2).toNat, by omega⟩
      refine ⟨m1 * 2 ^ j + m2, e2 - 1, ?_⟩
      rw [h1, h2, hj, zpow_add₀ (by norm_num), zpow_sub₀ (by norm_num), zpow_natCast, zpow_one]
      push_cast; ring
  obtain ⟨m, f, hd⟩ := dy
  have := c109_sqrt hx (rep_root hd (by rw [sq]; exact rx))
  rw [mid, sub_self, abs_zero, abs_nonpos_iff, sub_eq_zero] at this
  have w2 : (w : ℝ) = √(x : ℝ) := by linarith
  exact ne (by exact_mod_cast w2.trans this.symm)

-- The square root of two, which lies strictly between two numbers.
example : Rep 53 2 ∧ Rep 53 (3 / 2) ∧ (3 / 2 : ℚ) ≠ sqrt64 2 :=
  ⟨⟨2, 0, by norm_num, by norm_num⟩, ⟨3, -1, by norm_num, by norm_num⟩, by decide +kernel⟩

end Verif.Props

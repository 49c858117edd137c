import Verif.Incr.GridLarge
import Verif.Incr.AreaBox

/-!
# The float32 grid with IEEE rounding: the inner rows

A circle that touches an inner horizontal line of the grid from below has its centre up to 14900 pixels
away (image sides up to 4096).  There the neighbouring float32 numbers are `2^-10` apart.  Either the
centre is a multiple of `2^-11`, and then the float64 radius is not below its true value; or no multiple
of `2^-11` is so near that the float64 errors could reach it.
-/

namespace Verif.Incr

open Verif.Tri Verif.Float Verif.Spec

theorem rne53_err {q : ℚ} {e : ℕ} (h : |q| < 2 ^ e) : |rne 53 q - q| ≤ 2 ^ e / 2 ^ 54 := by
  by_cases h0 : q = 0
  · subst h0
    rw [rne_zero]
    simp
    positivity
  have hp : 0 < |q| := abs_pos.mpr h0
  refine (rne_abs 53 q).trans ?_
  obtain ⟨l1, _⟩ := log_bounds hp
  have hlt : (2 : ℚ) ^ Int.log 2 |q| < (2 : ℚ) ^ ((e : ℕ) : ℤ) := by
    rw [zpow_natCast]; exact l1.trans_lt h
  have hl : Int.log 2 |q| < e := (zpow_lt_zpow_iff_right₀ (by norm_num)).mp hlt
  unfold ulp
  have h1 : (2 : ℚ) ^ (Int.log 2 |q| - ((53 : ℕ) - 1 : ℤ)) ≤ (2 : ℚ) ^ ((e : ℤ) - 53) :=
    zpow_le_zpow_right₀ (by norm_num) (by push_cast; omega)
  have h2 : (2 : ℚ) ^ ((e : ℤ) - 53) = 2 ^ e / 2 ^ 53 := by
    rw [zpow_sub₀ (by norm_num), zpow_natCast]; norm_num
  rw [h2] at h1
  have h3 : (2 : ℚ) ^ e / 2 ^ 54 = 2 ^ e / 2 ^ 53 / 2 := by ring
  rw [h3]
  linarith

theorem rne53_err' {q : ℚ} {e : ℕ} (h : |q| ≤ 2 ^ e) : |rne 53 q - q| ≤ 2 ^ e / 2 ^ 54 := by
  rcases h.lt_or_eq with h | h
  · exact rne53_err h
  · have : Rep 53 q := by
      rcases abs_cases q with ⟨h1, _⟩ | ⟨h1, _⟩
      · exact ⟨1, e, by norm_num, by rw [zpow_natCast, ← h, h1]; ring⟩
      · exact ⟨-1, e, by norm_num, by rw [zpow_natCast, ← h, h1]; ring⟩
    rw [rne_fix (by norm_num) this, sub_self, abs_zero]
    positivity

theorem rne53_mult {q : ℚ} {e : ℕ} (h : 2 ^ e ≤ |q|) : ∃ m : ℤ, rne 53 q = m * ((2 : ℚ) ^ e / 2 ^ 52) := by
  have hp : 0 < |q| := lt_of_lt_of_le (by positivity) h
  obtain ⟨_, l2⟩ := log_bounds hp
  have hlt : (2 : ℚ) ^ ((e : ℕ) : ℤ) < (2 : ℚ) ^ (Int.log 2 |q| + 1) := by
    rw [zpow_natCast]; exact h.trans_lt l2
  have hl : (e : ℤ) < Int.log 2 |q| + 1 := (zpow_lt_zpow_iff_right₀ (by norm_num)).mp hlt
  obtain ⟨d, hd⟩ := Int.eq_ofNat_of_zero_le (show 0 ≤ Int.log 2 |q| - e by omega)
  refine ⟨rint (q / ulp 53 q) * 2 ^ d, ?_⟩
  unfold rne
  have hu : ulp 53 q = 2 ^ d * ((2 : ℚ) ^ e / 2 ^ 52) := by
    unfold ulp
    rw [show Int.log 2 |q| - ((53 : ℕ) - 1 : ℤ) = (d : ℤ) + (e : ℤ) - 52 by push_cast; omega,
      zpow_sub₀ (by norm_num), zpow_add₀ (by norm_num), zpow_natCast, zpow_natCast]
    norm_num
    ring
  rw [hu]
  push_cast
  ring

/-- Rounding commutes with a shift by an even integer. -/
theorem rint_shift (q : ℚ) (m : ℤ) : rint (q + ((2 * m : ℤ) : ℚ)) = rint q + 2 * m := by
  unfold rint
  simp only [Int.floor_add_intCast]
  have e : q + ((2 * m : ℤ) : ℚ) - ((⌊q⌋ + 2 * m : ℤ) : ℚ) = q - ⌊q⌋ := by push_cast; ring
  rw [e]
  have e2 : (⌊q⌋ + 2 * m) % 2 = ⌊q⌋ % 2 := by omega
  rw [e2]
  split
  · rfl
  · split
    · ring
    · split <;> ring

theorem ulp24 {q : ℚ} (h1 : 8192 ≤ q) (h2 : q < 16384) : ulp 24 q = 1 / 1024 := by
  have hp : 0 < q := by linarith
  obtain ⟨l1, l2⟩ := log_bounds hp
  have a : Int.log 2 q < 14 := by
    have : (2 : ℚ) ^ Int.log 2 q < (2 : ℚ) ^ (14 : ℤ) := l1.trans_lt (by norm_num; exact h2)
    exact (zpow_lt_zpow_iff_right₀ (by norm_num)).mp this
  have b : 13 < Int.log 2 q + 1 := by
    have : (2 : ℚ) ^ (13 : ℤ) < (2 : ℚ) ^ (Int.log 2 q + 1) := lt_of_le_of_lt (by norm_num; exact h1) l2
    exact (zpow_lt_zpow_iff_right₀ (by norm_num)).mp this
  have c : Int.log 2 q = 13 := by omega
  unfold ulp
  rw [abs_of_pos hp, c]
  norm_num

/-- Float32 rounding commutes with a shift by an integer between `2^13` and `2^14`. -/
theorem rne24_shift {q : ℚ} {y : ℤ} (h1 : 8192 ≤ q) (h2 : q < 16384) (h3 : 8192 ≤ q + y) (h4 : q + y < 16384) :
    rne 24 (q + y) = rne 24 q + y := by
  unfold rne
  rw [ulp24 h1 h2, ulp24 h3 h4]
  have : (q + y) / (1 / 1024) = q / (1 / 1024) + ((2 * (512 * y) : ℤ) : ℚ) := by push_cast; ring
  rw [this, rint_shift]
  push_cast
  ring

/-- What `math.Sqrt` rounds is above every multiple of `2^-45` below the root. -/
theorem sqrt64_gt {x : ℚ} (x1 : x < 2 ^ 30) {j : ℕ} (h : ((j : ℚ) / 2 ^ 45) ^ 2 < x) :
    ∃ y, (j : ℚ) / 2 ^ 45 < y ∧ sqrt64 x = rne 53 y := by
  have xp : 0 < x := lt_of_le_of_lt (by positivity) h
  have hL : Int.log 2 x < 30 := by
    have h1 := (log_bounds xp).1
    have h2 : x < (2 : ℚ) ^ (30 : ℤ) := by norm_num at x1 ⊢; exact x1
    exact (zpow_lt_zpow_iff_right₀ (by norm_num)).mp (h1.trans_lt h2)
  unfold sqrt64
  rw [if_neg (not_le.mpr xp)]
  simp only
  refine ⟨_, ?_, rfl⟩
  obtain ⟨e, he⟩ : ∃ e : ℕ, 60 - Int.log 2 x / 2 = 45 + (e : ℤ) := ⟨(15 - Int.log 2 x / 2).toNat, by omega⟩
  rw [he]
  have p2 : (2 : ℚ) ^ (45 + (e : ℤ)) = 2 ^ 45 * 2 ^ e := by
    rw [zpow_add₀ (by norm_num), zpow_natCast]; norm_num
  have p4 : (4 : ℚ) ^ (45 + (e : ℤ)) = (2 ^ 45 * 2 ^ e) ^ 2 := by
    rw [← p2, show (4 : ℚ) = 2 * 2 by norm_num, mul_zpow]; ring
  rw [p4, p2, lt_div_iff₀ (by positivity)]
  have e1 : (j : ℚ) / 2 ^ 45 * (2 ^ 45 * 2 ^ e) = ((j * 2 ^ e : ℕ) : ℚ) := by push_cast; field_simp
  rw [e1]
  set X := x * (2 ^ 45 * 2 ^ e) ^ 2 with hX
  have hlt : (((j * 2 ^ e : ℕ)) : ℚ) ^ 2 < X := by
    rw [← e1, mul_pow, hX]
    exact mul_lt_mul_of_pos_right h (by positivity)
  have hs : j * 2 ^ e ≤ Nat.sqrt ⌊X⌋₊ := by
    rw [Nat.le_sqrt']
    apply Nat.le_floor
    push_cast at hlt ⊢
    exact hlt.le
  have hsq : ((j * 2 ^ e : ℕ) : ℚ) ≤ (Nat.sqrt ⌊X⌋₊ : ℕ) := by exact_mod_cast hs
  split
  · rename_i heq
    rcases hsq.lt_or_eq with h1 | h1
    · exact h1
    · rw [h1] at hlt
      exact absurd heq hlt.ne
  · linarith

theorem sq_drop {d D e B : ℚ} (hB : 0 ≤ B) (he : |d - D| ≤ e) (hD : |D| ≤ B) : D ^ 2 - 2 * B * e ≤ d * d := by
  have h1 : |D * (d - D)| ≤ B * e := by
    rw [abs_mul]; exact mul_le_mul hD he (abs_nonneg _) hB
  have := (abs_le.mp h1).1
  nlinarith only [this, sq_nonneg (d - D)]

/-- The square of the horizontal distance, from below. -/
theorem dx_low {ox : ℚ} {ax : ℤ} (hox : |ox| < 4097) (hX : |ox - ax| ≤ 8192) (hX2 : 4096 ≤ |ox| → |ox - ax| ≤ 6144) :
    |rne 53 (rne 53 ox - ax)| ≤ 8192 ∧
      (ox - ax) ^ 2 - 3 / 2 ^ 28 < rne 53 (rne 53 ox - ax) * rne 53 (rne 53 ox - ax) := by
  have K : Rnd 53 (rne 53) := rne_rnd (by norm_num)
  have X := abs_le.mp hX
  have ho := abs_lt.mp hox
  have axb : |ax| ≤ 12289 := by
    have h1 : (ax : ℚ) ≤ 12289 := by linarith only [X.1, ho.2]
    have h2 : (-12289 : ℚ) ≤ ax := by linarith only [X.2, ho.1]
    exact abs_le.mpr ⟨by exact_mod_cast h2, by exact_mod_cast h1⟩
  have axb' := abs_le.mp axb
  have c1 : rne 53 ox ≤ ((ax + 8192 : ℤ) : ℚ) :=
    K.le_int (abs_le.mpr ⟨by norm_num; omega, by norm_num; omega⟩) (by push_cast; linarith only [X.2])
  have c2 : ((ax - 8192 : ℤ) : ℚ) ≤ rne 53 ox :=
    K.int_le (abs_le.mpr ⟨by norm_num; omega, by norm_num; omega⟩) (by push_cast; linarith only [X.1])
  push_cast at c1 c2
  have c3 : |rne 53 ox - ax| ≤ 8192 := abs_le.mpr ⟨by linarith only [c2], by linarith only [c1]⟩
  have c3' := abs_le.mp c3
  refine ⟨abs_le.mpr ⟨?_, ?_⟩, ?_⟩
  · have := K.int_le (n := -8192) (x := rne 53 ox - ax) (by norm_num) (by push_cast; exact c3'.1)
    push_cast at this; exact this
  · have := K.le_int (n := 8192) (x := rne 53 ox - ax) (by norm_num) (by push_cast; exact c3'.2)
    push_cast at this; exact this
  -- whole numbers
  have whole : ∀ z : ℤ, ox - ax = z → (ox - ax) ^ 2 - 3 / 2 ^ 28 < rne 53 (rne 53 ox - ax) * rne 53 (rne 53 ox - ax) := by
    intro z hz
    have hz' : |z| ≤ 8192 := by rw [hz] at hX; exact_mod_cast hX
    have hz' := abs_le.mp hz'
    have e1 : ox = ((z + ax : ℤ) : ℚ) := by push_cast; linarith only [hz]
    have e2 : rne 53 ox = ox := by rw [e1]; exact K.int (abs_le.mpr ⟨by norm_num; omega, by norm_num; omega⟩)
    have e3 : rne 53 ((z : ℤ) : ℚ) = z := K.int (abs_le.mpr ⟨by norm_num; omega, by norm_num; omega⟩)
    rw [e2, hz, e3]
    norm_num
    linarith only [sq (z : ℚ)]
  have a2 := abs_le.mp (rne53_err' (q := rne 53 ox - ax) (e := 13) (by norm_num; exact c3))
  have edge : ∀ m : ℤ, |ox - ax| = m → ∃ z : ℤ, ox - ax = z := by
    intro m hm
    rcases abs_cases (ox - ax) with ⟨h, _⟩ | ⟨h, _⟩
    · exact ⟨m, by rw [← hm, h]⟩
    · exact ⟨-m, by push_cast; rw [← hm, h]; ring⟩
  rcases lt_or_ge |ox| 4096 with hs | hb
  · rcases hX.lt_or_eq with hX | hX
    · have a1 := abs_le.mp (rne53_err (e := 12) (by norm_num; exact hs))
      have d1 : |rne 53 (rne 53 ox - ax) - (ox - ax)| ≤ 3 / 2 ^ 42 := by
        norm_num at a1 a2 ⊢
        rw [abs_le]; constructor <;> linarith only [a1.1, a1.2, a2.1, a2.2]
      have := sq_drop (abs_nonneg _) d1 le_rfl
      norm_num at this ⊢
      linarith only [this, hX]
    · obtain ⟨z, hz⟩ := edge 8192 (by rw [hX]; norm_num)
      exact whole z hz
  · rcases (hX2 hb).lt_or_eq with hX | hX
    · have a1 := abs_le.mp (rne53_err (q := ox) (e := 13) (by norm_num; linarith only [hox]))
      have d1 : |rne 53 (rne 53 ox - ax) - (ox - ax)| ≤ 1 / 2 ^ 40 := by
        norm_num at a1 a2 ⊢
        rw [abs_le]; constructor <;> linarith only [a1.1, a1.2, a2.1, a2.2]
      have := sq_drop (abs_nonneg _) d1 le_rfl
      norm_num at this ⊢
      linarith only [this, hX]
    · obtain ⟨z, hz⟩ := edge 6144 (by rw [hX]; norm_num)
      exact whole z hz

/-- The sum of squares that `calcCircumcircle` takes the root of, from below. -/
theorem rad_low {ox oy k : ℚ} {ax ay : ℤ} (hox : |ox| < 4097) (hX : |ox - ax| ≤ 8192) (hX2 : 4096 ≤ |ox| → |ox - ax| ≤ 6144)
    (hoy : |oy| < 16384) (k2 : k ≤ 14900) (hY : |oy - ay| ≤ k + 1 / 1000) (hr : k ^ 2 ≤ (ox - ax) ^ 2 + (oy - ay) ^ 2) {e : ℕ}
    (he : (k + 1) ^ 2 < 2 ^ e) :
    k ^ 2 - 364 / 100000000000000 * (k + 1) - 1 / 2 ^ 26 - 2 ^ e / 2 ^ 54 ≤
        rne 53 (rne 53 (rne 53 ox - ax) * rne 53 (rne 53 ox - ax)) +
        rne 53 (rne 53 (rne 53 oy - ay) * rne 53 (rne 53 oy - ay)) ∧
      (rne 53 (rne 53 (rne 53 oy - ay) * rne 53 (rne 53 oy - ay)) = (oy - ay) ^ 2 →
        k ^ 2 - 1 / 2 ^ 26 < rne 53 (rne 53 (rne 53 ox - ax) * rne 53 (rne 53 ox - ax)) +
          rne 53 (rne 53 (rne 53 oy - ay) * rne 53 (rne 53 oy - ay))) := by
  obtain ⟨xb, x1⟩ := dx_low hox hX hX2
  have Y := abs_le.mp hY
  set cy := rne 53 oy with hcy
  set dx := rne 53 (rne 53 ox - ax)
  have b1 := abs_le.mp (rne53_err (e := 14) (by norm_num; exact hoy))
  have b2 := abs_le.mp (rne53_err (q := cy - ay) (e := 14) (by
    norm_num at b1 ⊢; rw [abs_lt]; constructor <;> linarith only [Y.1, Y.2, b1.1, b1.2, k2]))
  set dy := rne 53 (cy - ay)
  have d2 : |dy - (oy - ay)| ≤ 182 / 100000000000000 := by
    norm_num at b1 b2
    rw [abs_le]; constructor <;> linarith only [b1.1, b1.2, b2.1, b2.2]
  have k0 : 0 ≤ k + 1 / 1000 := (abs_nonneg _).trans hY
  have y1 := sq_drop k0 d2 hY
  have d2' := abs_le.mp d2
  have x2 : |dx * dx| ≤ 2 ^ 26 := by
    rw [abs_mul]
    calc |dx| * |dx| ≤ 8192 * 8192 := mul_le_mul xb xb (abs_nonneg _) (by norm_num)
      _ = 2 ^ 26 := by norm_num
  have y2 : |dy * dy| < 2 ^ e := by
    rw [abs_mul]
    have : |dy| ≤ k + 1 := by rw [abs_le]; constructor <;> linarith only [d2'.1, d2'.2, Y.1, Y.2]
    calc |dy| * |dy| ≤ (k + 1) * (k + 1) := mul_le_mul this this (abs_nonneg _) (by linarith only [k0])
      _ = (k + 1) ^ 2 := by ring
      _ < 2 ^ e := he
  have x3 := (abs_le.mp (rne53_err' x2)).1
  have y3 := (abs_le.mp (rne53_err y2)).1
  generalize (2 : ℚ) ^ e / 2 ^ 54 = E at y3 ⊢
  norm_num at x3 x1 y1 ⊢
  refine ⟨by linarith only [x1, y1, x3, y3, hr], fun h => ?_⟩
  rw [h]
  linarith only [x1, x3, hr]

/-- **A circle that touches an inner row from below is listed in the row above it.** -/
theorem rne_rows {ox oy R k : ℚ} {ax ay y D N : ℤ} (y1 : 1 ≤ y) (hk : k = y - oy) (k2 : k ≤ 14900)
    (oy1 : rne 53 oy ≤ -8192) (ey : |rne 53 oy - oy| ≤ 5 / 1000000000000)
    (hox : |ox| < 4097) (hX : |ox - ax| ≤ 8192) (hX2 : 4096 ≤ |ox| → |ox - ax| ≤ 6144) (hY : |oy - ay| ≤ k + 1 / 1000)
    (hr : k ^ 2 ≤ (ox - ax) ^ 2 + (oy - ay) ^ 2) (hD : D ≠ 0) (hD2 : |D| ≤ 94000000) (hN : 2 * D * oy = N)
    (hR : R = sqrt64 (rne 53 (rne 53 (rne 53 (rne 53 ox - ax) * rne 53 (rne 53 ox - ax)) +
        rne 53 (rne 53 (rne 53 oy - ay) * rne 53 (rne 53 oy - ay)))))
    (R2 : R < 16384) : y - rne 24 (rne 53 oy) ≤ rne 24 R := by
  have K : Rnd 53 (rne 53) := rne_rnd (by norm_num)
  have ey' := abs_le.mp ey
  have y1q : (1 : ℚ) ≤ y := by exact_mod_cast y1
  have k1 : 8192 + 999 / 1000 ≤ k := by linarith only [hk, y1q, oy1, ey'.1]
  have oyb : oy ≤ -8191 := by linarith only [oy1, ey'.1]
  have hoy : |oy| < 16384 := by
    rw [abs_lt]; constructor <;> linarith only [hk, k2, y1q, oyb]
  have b1 := abs_le.mp (rne53_err (e := 14) (by norm_num; exact hoy))
  norm_num at b1
  obtain ⟨e, he, hek, he2⟩ : ∃ e : ℕ, (k + 1) ^ 2 < 2 ^ e ∧
      2 * ((2 : ℚ) ^ e / 2 ^ 54) ≤ 395 / 100000000000000 * k - 1495 / 100000000000 ∧ e ≤ 28 := by
    by_cases hc : (k + 1) ^ 2 < 2 ^ 27
    · exact ⟨27, hc, by norm_num; linarith only [k1], by norm_num⟩
    · have hc := not_lt.mp hc
      have : 11584 ≤ k := by
        by_contra hk'
        have hk' := not_le.mp hk'
        norm_num at hc
        nlinarith only [hc, hk', k1]
      exact ⟨28, by norm_num; nlinarith only [k1, k2], by norm_num; linarith only [this], le_rfl⟩
  obtain ⟨T1, T2⟩ := rad_low hox hX hX2 hoy k2 hY hr he
  set T := rne 53 (rne 53 (rne 53 ox - ax) * rne 53 (rne 53 ox - ax)) +
        rne 53 (rne 53 (rne 53 oy - ay) * rne 53 (rne 53 oy - ay)) with hT
  have kk : k ^ 2 < 222100000 := by nlinarith only [k1, k2]
  have kl : 67123000 < k ^ 2 := by nlinarith only [k1]
  set Cc := -rne 53 oy with hCc
  have hneg : y - rne 24 (rne 53 oy) = rne 24 Cc + y := by rw [hCc, rne_neg]; ring
  rw [hneg]
  have C1 : 8192 ≤ Cc := by linarith only [oy1, hCc]
  have C2 : Cc + y < 16384 := by linarith only [hCc, hk, k2, ey'.1]
  have C3 : Cc < 16384 := by linarith only [C2, y1q]
  by_cases hm : ∃ m : ℤ, oy = m / 2048
  · -- a multiple of `2^-11`
    obtain ⟨m, hm⟩ := hm
    have rep : ∀ (z : ℤ) (e : ℕ), |z| ≤ 2 ^ 53 → rne 53 ((z : ℚ) / 2 ^ e) = (z : ℚ) / 2 ^ e := by
      intro z e hz
      refine K.fix _ ⟨z, -e, hz, ?_⟩
      rw [zpow_neg, zpow_natCast]; rfl
    have hoy' := abs_lt.mp hoy
    have mb : |m| ≤ 2 ^ 25 := by
      rw [hm] at hoy'
      have m1 : (-(2 ^ 25) : ℚ) ≤ m := by linarith only [hoy'.1]
      have m2 : (m : ℚ) ≤ 2 ^ 25 := by linarith only [hoy'.2]
      rw [abs_le]
      exact ⟨by exact_mod_cast m1, by exact_mod_cast m2⟩
    have c0 : rne 53 oy = oy := by
      have := rep m 11 (mb.trans (by norm_num))
      norm_num at this
      rw [hm]; exact this
    have zb : |m - 2048 * ay| ≤ 2 ^ 25 := by
      have Y := abs_le.mp (hY.trans (by linarith only [k2] : k + 1 / 1000 ≤ 14901))
      rw [hm] at Y
      have m1 : (-(2 ^ 25) : ℚ) ≤ ((m - 2048 * ay : ℤ) : ℚ) := by push_cast; linarith only [Y.1]
      have m2 : ((m - 2048 * ay : ℤ) : ℚ) ≤ 2 ^ 25 := by push_cast; linarith only [Y.2]
      rw [abs_le]
      exact ⟨by exact_mod_cast m1, by exact_mod_cast m2⟩
    have dyx : rne 53 (oy - ay) = oy - ay := by
      have := rep (m - 2048 * ay) 11 (zb.trans (by norm_num))
      have e : (((m - 2048 * ay : ℤ)) : ℚ) / 2 ^ 11 = oy - ay := by rw [hm]; push_cast; ring
      rwa [e] at this
    have sqx : rne 53 (rne 53 (rne 53 oy - ay) * rne 53 (rne 53 oy - ay)) = (oy - ay) ^ 2 := by
      rw [c0, dyx]
      have := rep ((m - 2048 * ay) ^ 2) 22 (by
        rw [abs_pow]
        calc |m - 2048 * ay| ^ 2 ≤ (2 ^ 25) ^ 2 := pow_le_pow_left₀ (abs_nonneg _) zb 2
          _ ≤ 2 ^ 53 := by norm_num)
      have e : ((((m - 2048 * ay) ^ 2 : ℤ)) : ℚ) / 2 ^ 22 = (oy - ay) * (oy - ay) := by rw [hm]; push_cast; ring
      rw [e] at this
      rw [this]; ring
    have T3 := T2 sqx
    -- the sum, rounded
    have hkm : k = ((2048 * y - m : ℤ) : ℚ) / 2048 := by rw [hk, hm]; push_cast; ring
    have S5 : k ^ 2 - 1 / 2 ^ 26 ≤ rne 53 T := by
      rcases le_or_gt (k ^ 2) T with hT2 | hT2
      · have hz : |2048 * y - m| ≤ 2 ^ 25 := by
          have h1 : ((2048 * y - m : ℤ) : ℚ) = 2048 * k := by rw [hkm]; ring
          have h2 : (((2048 * y - m : ℤ)) : ℚ) ≤ 2 ^ 25 := by rw [h1]; linarith only [k2]
          have h3 : (0 : ℚ) ≤ ((2048 * y - m : ℤ) : ℚ) := by rw [h1]; linarith only [k1]
          have h2 : 2048 * y - m ≤ 2 ^ 25 := by exact_mod_cast h2
          have h3 : 0 ≤ 2048 * y - m := by exact_mod_cast h3
          rw [abs_of_nonneg h3]; exact h2
        have := rep ((2048 * y - m) ^ 2) 22 (by
          rw [abs_pow]
          calc |2048 * y - m| ^ 2 ≤ (2 ^ 25) ^ 2 := pow_le_pow_left₀ (abs_nonneg _) hz 2
            _ ≤ 2 ^ 53 := by norm_num)
        have e2 : ((((2048 * y - m) ^ 2 : ℤ)) : ℚ) / 2 ^ 22 = k ^ 2 := by rw [hkm]; push_cast; ring
        rw [e2] at this
        have h1 := K.mono _ _ hT2
        rw [this] at h1
        norm_num
        linarith only [h1]
      · norm_num at T3
        by_cases hbig : T < 2 ^ 27
        · have S2 := (abs_le.mp (rne53_err (q := T) (e := 27) (by
            rw [abs_lt]; exact ⟨by norm_num; linarith only [kl, T3], hbig⟩))).1
          have S3 := rne53_mult (q := T) (e := 26) (by
            rw [abs_of_nonneg (by linarith only [kl, T3])]; norm_num; linarith only [kl, T3])
          refine mult_le (u := 1 / 2 ^ 26) (by norm_num) ⟨(2048 * y - m) ^ 2 * 2 ^ 4 - 1, ?_⟩ ?_ ?_
          · rw [hk, hm]; push_cast; ring
          · obtain ⟨z, hz⟩ := S3
            exact ⟨z, by rw [hz]; norm_num⟩
          · norm_num at S2 ⊢; linarith only [S2, T3]
        · have S2 := (abs_le.mp (rne53_err (q := T) (e := 28) (by
            rw [abs_lt]; norm_num; constructor <;> linarith only [kk, kl, T3, hT2]))).1
          have S3 := rne53_mult (q := T) (e := 27) (by
            rw [abs_of_nonneg (by linarith only [kl, T3])]; exact not_lt.mp hbig)
          have : k ^ 2 ≤ rne 53 T := by
            refine mult_le (u := 1 / 2 ^ 25) (by norm_num) ⟨(2048 * y - m) ^ 2 * 2 ^ 3, ?_⟩ ?_ ?_
            · rw [hk, hm]; push_cast; ring
            · obtain ⟨z, hz⟩ := S3
              exact ⟨z, by rw [hz]; norm_num⟩
            · norm_num at S2 ⊢; linarith only [S2, T3]
          norm_num
          linarith only [this]
    have Tp : 0 ≤ rne 53 T := by norm_num at S5; linarith only [S5, kl]
    have Su : rne 53 T < 2 ^ 30 := by
      have := (sqrt64_ok.err _ Tp).1
      rw [← hR] at this
      have hR0 : 0 ≤ R := by rw [hR]; exact sqrt64_ok.nonneg _
      have hRR : R ^ 2 < 16384 ^ 2 := by gcongr
      norm_num at this hRR ⊢
      linarith only [this, hRR]
    have jb : 0 ≤ (2048 * y - m) * 2 ^ 34 - 32 := by
      have : (0 : ℚ) ≤ (((2048 * y - m) * 2 ^ 34 - 32 : ℤ) : ℚ) := by
        have e : (m : ℚ) = oy * 2048 := by rw [hm]; ring
        push_cast; rw [e]; linarith only [k1, hk]
      exact_mod_cast this
    obtain ⟨j, hj⟩ := Int.eq_ofNat_of_zero_le jb
    have hjk : (j : ℚ) / 2 ^ 45 = k - 1 / 2 ^ 40 := by
      have : (((2048 * y - m) * 2 ^ 34 - 32 : ℤ) : ℚ) = ((j : ℤ) : ℚ) := by rw [hj]
      push_cast at this
      rw [← this, hk, hm]
      ring
    obtain ⟨z, z1, z2⟩ := sqrt64_gt Su (j := j) (by
      rw [hjk]; norm_num at S5 ⊢; nlinarith only [S5, k1])
    rw [hjk] at z1
    have zz : rne 53 (min z k) ≤ rne 53 z := K.mono _ _ (min_le_left _ _)
    have zk : k - 1 / 2 ^ 40 < min z k := lt_min z1 (by norm_num)
    have zk2 : min z k ≤ k := min_le_right _ _
    generalize min z k = v at zz zk zk2
    have Z2 := (abs_le.mp (rne53_err (q := v) (e := 14) (by
      norm_num at zk ⊢; rw [abs_lt]; constructor <;> linarith only [k1, k2, zk, zk2]))).1
    have Z3 := rne53_mult (q := v) (e := 13) (by
      norm_num at zk ⊢; rw [abs_of_nonneg (by linarith only [k1, zk])]; linarith only [k1, zk])
    have Z4 : k ≤ rne 53 (v) := by
      refine mult_le (u := 1 / 2 ^ 39) (by norm_num) ⟨(2048 * y - m) * 2 ^ 28, ?_⟩ ?_ ?_
      · rw [hk, hm]; push_cast; ring
      · obtain ⟨z, hz⟩ := Z3
        exact ⟨z, by rw [hz]; norm_num⟩
      · norm_num at Z2 zk ⊢; linarith only [Z2, zk]
    have Rk : k ≤ R := by rw [hR, z2]; exact Z4.trans zz
    have hkC : k = Cc + y := by rw [hCc, c0, hk]; ring
    rw [← rne24_shift C1 C3 (by linarith only [C1, y1q]) C2, ← hkC]
    exact rne_mono (by norm_num) Rk
  · -- no multiple of `2^-11` nearby
    have far : ∀ m : ℤ, (m : ℚ) / 2048 ≤ oy - 519 / 100000000000000 ∨ oy + 519 / 100000000000000 ≤ (m : ℚ) / 2048 := by
      intro m
      have hne : 1024 * N - m * D ≠ 0 := by
        intro h
        apply hm
        refine ⟨m, ?_⟩
        have h1 : (1024 : ℚ) * N - m * D = 0 := by exact_mod_cast h
        rw [← hN] at h1
        have hDq : (D : ℚ) ≠ 0 := by exact_mod_cast hD
        have h2 : (D : ℚ) * (oy * 2048) = D * m := by linarith only [h1]
        have := mul_left_cancel₀ hDq h2
        rw [← this]; ring
      have h1 : 1 ≤ |1024 * N - m * D| := Int.one_le_abs hne
      have h2 : (1 : ℚ) ≤ |1024 * (N : ℚ) - m * D| := by exact_mod_cast h1
      rw [← hN, show 1024 * (2 * (D : ℚ) * oy) - m * D = D * (2048 * (oy - m / 2048)) by ring, abs_mul] at h2
      have h3 : |(D : ℚ)| ≤ 94000000 := by exact_mod_cast hD2
      by_contra hc
      push Not at hc
      have h4 : |2048 * (oy - (m : ℚ) / 2048)| < 2048 * (519 / 100000000000000) := by
        rw [abs_lt]; constructor <;> linarith only [hc.1, hc.2]
      have h5 : |(D : ℚ)| * |2048 * (oy - (m : ℚ) / 2048)| ≤ 94000000 * (2048 * (519 / 100000000000000)) :=
        mul_le_mul h3 h4.le (abs_nonneg _) (by norm_num)
      have h6 := h2.trans h5
      norm_num at h6
    have hpe : (2 : ℚ) ^ e ≤ 2 ^ 28 := pow_le_pow_right₀ (by norm_num) he2
    obtain ⟨E, hE⟩ : ∃ E : ℚ, E = 2 ^ e / 2 ^ 54 := ⟨_, rfl⟩
    have E0 : 0 ≤ E := by rw [hE]; positivity
    rw [← hE] at T1 hek
    obtain ⟨q, hq⟩ : ∃ q, q = k ^ 2 - 364 / 100000000000000 * (k + 1) - 1 / 2 ^ 26 - E := ⟨_, rfl⟩
    rw [← hq] at T1
    have E1 : E ≤ 1 := by rw [hE, div_le_one (by positivity)]; norm_num at hpe ⊢; linarith only [hpe]
    have S2 := (abs_le.mp (rne53_err (q := q) (e := e) (by
      rw [abs_lt]; constructor
      · linarith only [hq, kl, k2, E1, hpe, he, E0, sq_nonneg (k + 1)]
      · linarith only [hq, kl, k1, E0, he]))).1
    rw [← hE] at S2
    have S5 : k ^ 2 - 364 / 100000000000000 * (k + 1) - 1 / 2 ^ 26 - 2 * E ≤ rne 53 T := by
      have := K.mono _ _ T1
      linarith only [S2, this, hq]
    have Tp : 0 ≤ rne 53 T := by linarith only [S5, kl, k2, E1]
    have hR0 : 0 ≤ R := by rw [hR]; exact sqrt64_ok.nonneg _
    have Su : rne 53 T < 2 ^ 30 := by
      have := (sqrt64_ok.err _ Tp).1
      rw [← hR] at this
      have hRR : R ^ 2 < 16384 ^ 2 := by gcongr
      norm_num at this hRR ⊢
      linarith only [this, hRR]
    obtain ⟨j, hj⟩ : ∃ j : ℕ, j = ⌊(k - 380 / 100000000000000) * 2 ^ 45⌋₊ := ⟨_, rfl⟩
    have j1 : (j : ℚ) / 2 ^ 45 ≤ k - 380 / 100000000000000 := by
      rw [div_le_iff₀ (by positivity), hj]
      exact Nat.floor_le (mul_nonneg (by linarith only [k1]) (by norm_num))
    have j2 : k - 380 / 100000000000000 - 1 / 2 ^ 45 ≤ (j : ℚ) / 2 ^ 45 := by
      rw [le_div_iff₀ (by positivity), hj]
      have := Nat.lt_floor_add_one ((k - 380 / 100000000000000) * 2 ^ 45)
      norm_num at this ⊢
      linarith only [this]
    obtain ⟨z, z1, z2⟩ := sqrt64_gt Su (j := j) (by
      have h0 : (0 : ℚ) ≤ (j : ℚ) / 2 ^ 45 := by positivity
      have := pow_le_pow_left₀ h0 j1 2
      nlinarith only [this, S5, hek, k1])
    have zz : rne 53 (min z k) ≤ rne 53 z := K.mono _ _ (min_le_left _ _)
    have zk : k - 380 / 100000000000000 - 1 / 2 ^ 45 ≤ min z k :=
      le_min (j2.trans z1.le) (by norm_num; linarith only [k1])
    have zk2 : min z k ≤ k := min_le_right _ _
    generalize min z k = v at zz zk zk2
    have Z2 := (abs_le.mp (rne53_err (q := v) (e := 14) (by
      norm_num at zk ⊢; rw [abs_lt]; constructor <;> linarith only [k1, k2, zk, zk2]))).1
    have Rk : k - 480 / 100000000000000 ≤ R := by
      rw [hR, z2]
      norm_num at Z2 zk
      linarith only [Z2, zk, zz]
    have eC := (abs_le.mp (rne_err_lt (q := Cc) (e := 14) (by
      rw [abs_of_nonneg (by linarith only [C1])]; norm_num; exact C3))).2
    obtain ⟨mC, hC⟩ := rne_mult' (q := Cc) (u := 1 / 1024) 13 (by
      rw [abs_of_nonneg (by linarith only [C1])]; norm_num; exact C1) (by norm_num)
    have eR := (abs_le.mp (rne_err_lt (q := R) (e := 14) (by
      rw [abs_of_nonneg hR0]; norm_num; exact R2))).1
    have hRm := rne_mult' (q := R) (u := 1 / 1024) 13 (by
      rw [abs_of_nonneg hR0]; norm_num; linarith only [Rk, k1]) (by norm_num)
    norm_num at eC eR
    have tt : rne 24 Cc - 1 / 2048 ≤ -oy - 519 / 100000000000000 := by
      rcases far (-(2 * mC - 1)) with h | h
      · exfalso
        push_cast at h
        rw [hC] at eC
        linarith only [h, eC, b1.1, hCc]
      · push_cast at h
        rw [hC]
        linarith only [h]
    refine mult_le (u := 1 / 1024) (by norm_num) (mult_add ⟨mC, hC⟩ (by simpa using int_mult y 1024 (by norm_num))) hRm ?_
    linarith only [tt, eR, Rk, hk]

/-- How far away the centre of a circle can be that nearly touches an inner horizontal line of the grid
from below. -/
theorem far_below {n u D s hh y : ℚ} (n1 : 1000 ≤ n) (n2 : n ≤ 4096) (hh2 : 2 * hh ≤ n + 1)
    (hy : 2 * hh - 1 ≤ 10 * y) (hy2 : y ≤ 2 * hh) (hu : u = y - hh + n)
    (s1 : |s| ≤ 2 * n + 1) (h : D ^ 2 ≤ (u - D) ^ 2 + s ^ 2) : D ≤ 14900 := by
  by_contra hc
  have hc := not_le.mp hc
  have s2 : s ^ 2 ≤ (2 * n + 1) ^ 2 := by
    rw [← sq_abs s]; exact pow_le_pow_left₀ (abs_nonneg _) s1 2
  have u1 : 6 / 10 * n - 1 / 2 ≤ u := by linarith
  have u2 : u ≤ 3 / 2 * n + 1 / 2 := by linarith
  have u0 : 0 ≤ u := by linarith
  have h1 : u * (29800 - u) ≤ (2 * n + 1) ^ 2 := by
    have := mul_le_mul_of_nonneg_left hc.le u0
    nlinarith only [h, s2, this]
  have h2 := mul_nonneg (sub_nonneg.mpr u1) (by linarith : (0 : ℚ) ≤ 29800 - u - (6 / 10 * n - 1 / 2))
  have h3 := mul_nonneg (sub_nonneg.mpr n1) (sub_nonneg.mpr n2)
  nlinarith only [h1, h2, h3, n1, n2]

end Verif.Incr

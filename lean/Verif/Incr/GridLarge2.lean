import Verif.Incr.GridRows

/-!
# The float32 grid with IEEE rounding: which circles there are

A circle that is nearly tangent to a grid line at the point has its centre nearly on the other
coordinate of the point.  As it contains no bounding vertex, its centre is then less than `2^13` away
in the direction of `x` up to 5000 pixels.  In the direction of `y` the inner rows and the border are
treated apart.
-/

namespace Verif.Incr

open Verif.Tri Verif.Float Verif.Spec

/-- The square root of a square. -/
theorem sqrt64_sq {j : ℕ} (j0 : 0 < j) (j1 : j < 2 ^ 27) : sqrt64 (((j : ℚ) / 4096) ^ 2) = (j : ℚ) / 4096 := by
  have hj : (0 : ℚ) < j := by exact_mod_cast j0
  have hj1 : (j : ℚ) < 2 ^ 27 := by exact_mod_cast j1
  set x : ℚ := ((j : ℚ) / 4096) ^ 2 with hx
  have xp : 0 < x := by positivity
  have hL : Int.log 2 x < 30 := by
    have h1 := (log_bounds xp).1
    have h2 : x < (2 : ℚ) ^ (30 : ℤ) := by
      rw [hx]
      have : (j : ℚ) / 4096 < 2 ^ 15 := by rw [div_lt_iff₀ (by norm_num)]; norm_num at hj1 ⊢; exact hj1
      calc ((j : ℚ) / 4096) ^ 2 < (2 ^ 15) ^ 2 := by gcongr
        _ = (2 : ℚ) ^ (30 : ℤ) := by norm_num
    exact (zpow_lt_zpow_iff_right₀ (by norm_num)).mp (h1.trans_lt h2)
  unfold sqrt64
  rw [if_neg (not_le.mpr xp)]
  simp only
  obtain ⟨e, he⟩ : ∃ e : ℕ, 60 - Int.log 2 x / 2 = 12 + (e : ℤ) := ⟨(48 - Int.log 2 x / 2).toNat, by omega⟩
  rw [he]
  have p2 : (2 : ℚ) ^ (12 + (e : ℤ)) = 4096 * 2 ^ e := by
    rw [zpow_add₀ (by norm_num), zpow_natCast]; norm_num
  have p4 : (4 : ℚ) ^ (12 + (e : ℤ)) = (4096 * 2 ^ e) ^ 2 := by
    rw [← p2, show (4 : ℚ) = 2 * 2 by norm_num, mul_zpow]; ring
  have hX : x * (4 : ℚ) ^ (12 + (e : ℤ)) = ((j * 2 ^ e : ℕ) : ℚ) ^ 2 := by
    rw [p4, hx]; push_cast; field_simp
  have hfl : ⌊x * (4 : ℚ) ^ (12 + (e : ℤ))⌋₊ = (j * 2 ^ e) ^ 2 := by
    rw [hX]
    have : (((j * 2 ^ e : ℕ) : ℚ) ^ 2) = (((j * 2 ^ e) ^ 2 : ℕ) : ℚ) := by push_cast; ring
    rw [this, Nat.floor_natCast]
  rw [hfl, Nat.sqrt_eq', hX, if_pos rfl, p2]
  have : ((j * 2 ^ e : ℕ) : ℚ) / (4096 * 2 ^ e) = (j : ℚ) / 4096 := by
    push_cast; field_simp
  rw [this]
  refine rne_fix (by norm_num) ⟨j, -12, ?_, ?_⟩
  · rw [abs_of_nonneg (by positivity)]
    have : (j : ℤ) < 2 ^ 27 := by exact_mod_cast j1
    norm_num at this ⊢
    omega
  · norm_num
    ring

/-- Two numbers with no multiple of `2^-12` between them round to the same float32 number, here in
one direction. -/
theorem rne_cell {R C : ℚ} {j : ℤ} (C1 : (8192 : ℚ) ≤ C) (C2 : C < 32768) (a1 : (j : ℚ) < 4096 * R) (a2 : 4096 * R < j + 1)
    (b1 : (j : ℚ) < 4096 * C) (b2 : 4096 * C < j + 1) : rne 24 C ≤ rne 24 R := by
  have e15 : ∀ q : ℚ, |q| < 32768 → |rne 24 q - q| ≤ 1 / 1024 := fun q hq =>
    (rne_err_lt (e := 15) (by norm_num; exact hq)).trans (by norm_num)
  have e14 : ∀ q : ℚ, |q| < 16384 → |rne 24 q - q| ≤ 1 / 2048 := fun q hq =>
    (rne_err_lt (e := 14) (by norm_num; exact hq)).trans (by norm_num)
  -- a multiple below `C` is below `R`
  have key : ∀ t : ℚ, (∃ m : ℤ, t = m * (1 / 4096)) → t ≤ C → t < R := by
    rintro t ⟨m, rfl⟩ h
    have h1 : (m : ℚ) < ((j + 1 : ℤ) : ℚ) := by push_cast; linarith
    have h2 : m < j + 1 := by exact_mod_cast h1
    have h3 : (m : ℚ) ≤ j := by exact_mod_cast (by omega : m ≤ j)
    linarith
  have key2 : ∀ t : ℚ, (∃ m : ℤ, t = m * (1 / 4096)) → C < t → R < t := by
    rintro t ⟨m, rfl⟩ h
    have h1 : (j : ℚ) < m := by linarith
    have h2 : j < m := by exact_mod_cast h1
    have h3 : ((j + 1 : ℤ) : ℚ) ≤ m := by exact_mod_cast (by omega : j + 1 ≤ m)
    push_cast at h3
    linarith
  have R1 := key 8192 ⟨8192 * 4096, by norm_num⟩ C1
  have R2 := key2 32768 ⟨32768 * 4096, by norm_num⟩ C2
  by_cases s : C < 16384
  · have R3 := key2 16384 ⟨16384 * 4096, by norm_num⟩ s
    obtain ⟨m, hm⟩ := rne_mult' (q := C) (u := 1 / 1024) 13 (by rw [abs_of_nonneg (by linarith)]; norm_num; linarith) (by norm_num)
    have mr := rne_mult' (q := R) (u := 1 / 1024) 13 (by rw [abs_of_nonneg (by linarith)]; norm_num; linarith) (by norm_num)
    have eC := abs_le.mp (e14 C (abs_lt.mpr ⟨by linarith, by linarith⟩))
    have eR := abs_le.mp (e14 R (abs_lt.mpr ⟨by linarith, by linarith⟩))
    have h3 := key (rne 24 C - 1 / 2048) ⟨4 * m - 2, by rw [hm]; push_cast; ring⟩ (by linarith)
    exact mult_le (u := 1 / 1024) (by norm_num) ⟨m, hm⟩ mr (by linarith)
  · have s := not_lt.mp s
    have R3 := key 16384 ⟨16384 * 4096, by norm_num⟩ s
    obtain ⟨m, hm⟩ := rne_mult' (q := C) (u := 1 / 512) 14 (by rw [abs_of_nonneg (by linarith)]; norm_num; linarith) (by norm_num)
    have mr := rne_mult' (q := R) (u := 1 / 512) 14 (by rw [abs_of_nonneg (by linarith)]; norm_num; linarith) (by norm_num)
    have eC := abs_le.mp (e15 C (abs_lt.mpr ⟨by linarith, by linarith⟩))
    have eR := abs_le.mp (e15 R (abs_lt.mpr ⟨by linarith, by linarith⟩))
    have h3 := key (rne 24 C - 1 / 1024) ⟨8 * m - 4, by rw [hm]; push_cast; ring⟩ (by linarith)
    exact mult_le (u := 1 / 512) (by norm_num) ⟨m, hm⟩ mr (by linarith)

/-- The circle through the lower bounding vertices and the point between them on the border. -/
theorem rne_tangent {n s : ℤ} {ax ay R : ℚ} (n0 : 0 ≤ n) (hn : n ≤ 5000) (s0 : 0 < s) (hs : s ≤ 5000)
    (k1 : 8192 ≤ rne 53 ((4 * (n : ℚ) ^ 2 + s ^ 2) / (2 * s))) (k2 : (4 * (n : ℚ) ^ 2 + s ^ 2) / (2 * s) ≤ 21258)
    (hv : (ax = 0 ∧ ay = 0) ∨ ((ax = 2 * n ∨ ax = - (2 * n)) ∧ ay = s))
    (eC : |rne 53 ((4 * (n : ℚ) ^ 2 + s ^ 2) / (2 * s)) - (4 * (n : ℚ) ^ 2 + s ^ 2) / (2 * s)| ≤ 5 / 1000000000000)
    (hR : R = sqrt64 (rne 53 (rne 53 (rne 53 ax * rne 53 ax) + rne 53 (rne 53 (ay - rne 53 ((4 * (n : ℚ) ^ 2 + s ^ 2) / (2 * s))) *
      rne 53 (ay - rne 53 ((4 * (n : ℚ) ^ 2 + s ^ 2) / (2 * s)))))))
    (R0 : 0 ≤ R)
    (sq : |R ^ 2 - ((4 * (n : ℚ) ^ 2 + s ^ 2) / (2 * s)) ^ 2| ≤ 7 / 1000000) :
    rne 24 (rne 53 ((4 * (n : ℚ) ^ 2 + s ^ 2) / (2 * s))) ≤ rne 24 R := by
  have K : Rnd 53 (rne 53) := rne_rnd (by norm_num)
  set k := (4 * (n : ℚ) ^ 2 + s ^ 2) / (2 * s) with hk
  set C := rne 53 k with hC
  have sq0 : (0 : ℚ) < s := by exact_mod_cast s0
  have sq1 : (s : ℚ) ≤ 5000 := by exact_mod_cast hs
  have nq1 : (n : ℚ) ≤ 5000 := by exact_mod_cast hn
  have nq0 : (0 : ℚ) ≤ n := by exact_mod_cast n0
  have hk2 : 2 * k * s = 4 * (n : ℚ) ^ 2 + s ^ 2 := by rw [hk]; field_simp
  have eC := abs_le.mp eC
  by_cases hd : (2 * s) ∣ (4096 * (4 * n ^ 2 + s ^ 2))
  · -- everything is exact
    obtain ⟨j, hj⟩ := hd
    have hjk : k = (j : ℚ) / 4096 := by
      have : (4096 : ℚ) * (4 * (n : ℚ) ^ 2 + s ^ 2) = 2 * s * j := by exact_mod_cast hj
      rw [eq_div_iff (by norm_num)]
      have h2 : (s : ℚ) * (k * 4096) = s * j := by linarith
      exact mul_left_cancel₀ sq0.ne' h2
    have hjq0 : (8191 * 4096 : ℚ) < j := by rw [hjk] at eC; linarith
    have hjq1 : (j : ℚ) ≤ 21258 * 4096 := by rw [hjk] at k2; linarith
    have j0 : 8191 * 4096 < j := by exact_mod_cast hjq0
    have j1 : j ≤ 21258 * 4096 := by exact_mod_cast hjq1
    obtain ⟨l, rfl⟩ := Int.eq_ofNat_of_zero_le (by omega : 0 ≤ j)
    have rep : ∀ (z : ℤ) (e : ℕ), |z| ≤ 2 ^ 53 → rne 53 ((z : ℚ) / 2 ^ e) = (z : ℚ) / 2 ^ e := by
      intro z e hz
      refine K.fix _ ⟨z, -e, hz, ?_⟩
      rw [zpow_neg, zpow_natCast]; rfl
    have hCk : C = k := by
      rw [hC, hjk]
      have := rep l 12 (by rw [abs_of_nonneg (by omega)]; norm_num; omega)
      norm_num at this ⊢
      exact this
    have hRk : R = k := by
      rw [hR, hCk]
      have fin : ∀ z : ℚ, z = ((l : ℚ) / 4096) ^ 2 → sqrt64 (rne 53 z) = k := by
        intro z hz
        rw [hz]
        have h1 := rep ((l : ℤ) ^ 2) 24 (by
          rw [abs_of_nonneg (by positivity)]
          calc (l : ℤ) ^ 2 ≤ (21258 * 4096) ^ 2 := pow_le_pow_left₀ (by omega) j1 2
            _ ≤ 2 ^ 53 := by norm_num)
        have h2 : ((((l : ℤ) ^ 2 : ℤ)) : ℚ) / 2 ^ 24 = ((l : ℚ) / 4096) ^ 2 := by push_cast; ring
        rw [h2] at h1
        rw [h1, sqrt64_sq (by omega) (by omega), hjk]
        push_cast
        rfl
      have hjk' : k = (l : ℚ) / 4096 := by rw [hjk]; push_cast; rfl
      rcases hv with ⟨rfl, rfl⟩ | ⟨hax, rfl⟩
      · have z0 : rne 53 0 = 0 := rne_zero 53
        have h1 : rne 53 (0 - k) = -k := by rw [zero_sub, rne_neg]; rw [← hC, hCk]
        rw [z0, h1, mul_zero, z0, zero_add]
        have h2 : rne 53 (-k * -k) = k ^ 2 := by
          have := rep ((l : ℤ) ^ 2) 24 (by
            rw [abs_of_nonneg (by positivity)]
            calc (l : ℤ) ^ 2 ≤ (21258 * 4096) ^ 2 := pow_le_pow_left₀ (by omega) j1 2
              _ ≤ 2 ^ 53 := by norm_num)
          have h3 : ((((l : ℤ) ^ 2 : ℤ)) : ℚ) / 2 ^ 24 = -k * -k := by rw [hjk']; push_cast; ring
          rw [h3] at this
          rw [this]; ring
        rw [h2]
        exact fin _ (by rw [hjk'])
      · have hx : rne 53 (rne 53 ax * rne 53 ax) = 4 * (n : ℚ) ^ 2 := by
          have hi : ∃ z : ℤ, ax = z ∧ z ^ 2 = 4 * n ^ 2 ∧ |z| ≤ 10000 := by
            rcases hax with h | h
            · exact ⟨2 * n, by rw [h]; push_cast; ring, by ring, by rw [abs_le]; constructor <;> omega⟩
            · exact ⟨-(2 * n), by rw [h]; push_cast; ring, by ring, by rw [abs_le]; constructor <;> omega⟩
          obtain ⟨z, h1, h2, h3⟩ := hi
          rw [h1, K.int (h3.trans (by norm_num))]
          have h4 : (z : ℚ) * z = ((4 * n ^ 2 : ℤ) : ℚ) := by rw [← h2]; push_cast; ring
          rw [h4, K.int]
          · push_cast; ring
          · rw [abs_of_nonneg (by positivity)]
            have : n ^ 2 ≤ 5000 ^ 2 := pow_le_pow_left₀ n0 hn 2
            norm_num at this ⊢
            omega
        have hbd : |4096 * s - (l : ℤ)| ≤ 21258 * 4096 := by rw [abs_le]; constructor <;> omega
        have hy1 : rne 53 (s - k) = s - k := by
          have := rep (4096 * s - l) 12 (hbd.trans (by norm_num))
          have h3 : (((4096 * s - l : ℤ)) : ℚ) / 2 ^ 12 = s - k := by rw [hjk']; push_cast; ring
          rwa [h3] at this
        have hy2 : rne 53 ((s - k) * (s - k)) = (s - k) * (s - k) := by
          have := rep ((4096 * s - l) ^ 2) 24 (by
            rw [abs_pow]
            calc |4096 * s - (l : ℤ)| ^ 2 ≤ (21258 * 4096) ^ 2 := pow_le_pow_left₀ (abs_nonneg _) hbd 2
              _ ≤ 2 ^ 53 := by norm_num)
          have h3 : ((((4096 * s - l) ^ 2 : ℤ)) : ℚ) / 2 ^ 24 = (s - k) * (s - k) := by rw [hjk']; push_cast; ring
          rwa [h3] at this
        rw [hx, hy1, hy2]
        exact fin _ (by rw [← hjk']; linarith)
    rw [hCk, hRk]
  · -- no multiple of 2^-12 nearby
    have s2 : 0 < 2 * s := by omega
    set P := 4096 * (4 * n ^ 2 + s ^ 2) with hP
    set j := P / (2 * s) with hj
    have m1 : 2 * s * j + P % (2 * s) = P := Int.mul_ediv_add_emod P (2 * s)
    have m2 : 1 ≤ P % (2 * s) := by
      have h1 := Int.emod_nonneg P s2.ne'
      have h2 : P % (2 * s) ≠ 0 := fun h => hd (Int.dvd_of_emod_eq_zero h)
      omega
    have m3 : P % (2 * s) ≤ 2 * s - 1 := by have := Int.emod_lt_of_pos P s2; omega
    have hPq : (P : ℚ) = 4096 * k * (2 * s) := by rw [hP]; push_cast; linarith
    have l1 : ((2 * s * j + 1 : ℤ) : ℚ) ≤ P := by exact_mod_cast (by omega)
    have l2 : (P : ℚ) ≤ ((2 * s * (j + 1) - 1 : ℤ) : ℚ) := by exact_mod_cast (by linarith : P ≤ 2 * s * (j + 1) - 1)
    push_cast at l1 l2
    rw [hPq] at l1 l2
    have l1' : (j : ℚ) + 1 / 10000 ≤ 4096 * k := by
      have : (2 * (s : ℚ)) * (j + 1 / 10000) ≤ (2 * s) * (4096 * k) := by linarith
      exact le_of_mul_le_mul_left this (by linarith)
    have l2' : 4096 * k ≤ (j : ℚ) + 1 - 1 / 10000 := by
      have : (2 * (s : ℚ)) * (4096 * k) ≤ (2 * s) * (j + 1 - 1 / 10000) := by linarith
      exact le_of_mul_le_mul_left this (by linarith)
    have sq := abs_le.mp sq
    have kb : 8191 ≤ k := by linarith
    have Rk1 : R ≤ k + 1 / 1000000000 := by
      by_contra hc
      have hc := not_le.mp hc
      nlinarith only [hc, sq.2, kb]
    have Rk2 : k - 1 / 1000000000 ≤ R := by
      by_contra hc
      have hc := not_le.mp hc
      nlinarith only [hc, sq.1, kb, R0]
    exact rne_cell (j := j) k1 (by linarith) (by linarith) (by linarith) (by linarith) (by linarith)

/-- A circle that nearly touches the right (or the upper) border from outside and contains no bounding vertex. -/
theorem no_far_border {n u D s : ℚ} (n1 : 2045 ≤ n) (n2 : n ≤ 5000) (u1 : 3 / 2 * n ≤ u) (u2 : u ≤ 2 * n) (hD : 8190 ≤ D)
    (s1 : |s| ≤ 3 / 2 * n + 247) (h : D ^ 2 ≤ (u - D) ^ 2 + s ^ 2) : False := by
  have s2 : s ^ 2 ≤ (3 / 2 * n + 247) ^ 2 := by
    rw [← sq_abs s]; exact pow_le_pow_left₀ (abs_nonneg _) s1 2
  have h1 : u * (16380 - u) ≤ (3 / 2 * n + 247) ^ 2 := by nlinarith only [h, s2, hD, u1, n1]
  have h2 := mul_nonneg (sub_nonneg.mpr u1) (sub_nonneg.mpr u2)
  rcases le_total (16380 - 7 / 2 * n) 0 with hc | hc
  · have h3 := mul_nonneg_of_nonpos_of_nonpos hc (sub_nonpos.mpr u2)
    nlinarith only [h1, h2, h3, n1, n2]
  · have h3 := mul_nonneg hc (sub_nonneg.mpr u1)
    nlinarith only [h1, h2, h3, n1, n2]

/-- A circle that nearly touches a vertical line of the image, from the left. -/
theorem no_far_left {n u D s hw : ℚ} (n1 : 1000 ≤ n) (n2 : n ≤ 5000) (hw1 : 1 ≤ hw) (hw2 : 2 * hw ≤ n + 1)
    (u1 : 2 * n - hw ≤ u) (hD : u - 2 * n + hw + 8191 ≤ D)
    (s1 : |s| ≤ 3 / 2 * n + 1) (h : D ^ 2 ≤ (u - D) ^ 2 + s ^ 2) : False := by
  have s2 : s ^ 2 ≤ (3 / 2 * n + 1) ^ 2 := by
    rw [← sq_abs s]; exact pow_le_pow_left₀ (abs_nonneg _) s1 2
  have u0 : 0 ≤ u := by linarith
  have h1 : u * (u - 4 * n + 2 * hw + 16382) ≤ (3 / 2 * n + 1) ^ 2 := by
    have := mul_le_mul_of_nonneg_left hD u0
    nlinarith only [h, s2, this]
  rcases le_total (2 * n) u with hu | hu
  · have h3 : 2 * n * (16382 - 2 * n) ≤ u * (u - 4 * n + 2 * hw + 16382) :=
      mul_le_mul hu (by linarith) (by linarith) u0
    nlinarith only [h1, h3, n1, n2]
  · have h0 : u * (16382 - u) ≤ u * (u - 4 * n + 2 * hw + 16382) := mul_le_mul_of_nonneg_left (by linarith) u0
    have u1' : 3 / 2 * n - 1 / 2 ≤ u := by linarith
    have h2 := mul_nonneg (sub_nonneg.mpr u1') (sub_nonneg.mpr hu)
    rcases le_total (16380 - 7 / 2 * n) 0 with hc | hc
    · have h3 := mul_nonneg_of_nonpos_of_nonpos hc (sub_nonpos.mpr hu)
      nlinarith only [h1, h0, h2, h3, n1, n2, u1', hu]
    · have h3 := mul_nonneg hc (sub_nonneg.mpr u1')
      nlinarith only [h1, h0, h2, h3, n1, n2, u1', hu]

/-- Not on one of the nine inner horizontal lines of the grid (`grid.go`: ten rows of `h / 10` pixels). -/
def OffRows (h : Nat) (p : Pt) : Prop := 0 < p.y → p.y < h → ¬ (h : ℤ) ∣ 10 * p.y

/-- The rest of a circle that contains `q` and, in float64, does not reach beyond it along one axis. -/
theorem tight {o1 o2 c q1 q2 r2 R : ℚ} (ec : |c - o1| ≤ 5 / 1000000000000) (hb : |o1 - q1| ≤ 30000)
    (hin : (o1 - q1) ^ 2 + (o2 - q2) ^ 2 ≤ r2) (sq1 : r2 - 7 / 1000000 ≤ R ^ 2) (R0 : 0 ≤ R) {e : ℚ} (e0 : 0 ≤ e)
    (e1 : e ≤ 1) (hR : R ≤ |c - q1| + e) : (o2 - q2) ^ 2 ≤ 8 / 1000000 + 60002 * e ∧ r2 ≤ (|o1 - q1| + e) ^ 2 + 8 / 1000000 := by
  have h1 : |c - q1| ≤ |o1 - q1| + 5 / 1000000000000 := by
    have : c - q1 = (c - o1) + (o1 - q1) := by ring
    rw [this]
    exact (abs_add_le _ _).trans (by linarith)
  set X := |o1 - q1| with hX
  have X0 : 0 ≤ X := abs_nonneg _
  have hX2 : X ^ 2 = (o1 - q1) ^ 2 := sq_abs _
  have h2 : R ^ 2 ≤ (X + e + 5 / 1000000000000) ^ 2 := pow_le_pow_left₀ R0 (by linarith) 2
  have h3 : (X + e + 5 / 1000000000000) ^ 2 ≤ (X + e) ^ 2 + 1 / 1000000 := by nlinarith only [X0, hb, e0, e1]
  refine ⟨?_, by linarith⟩
  have h4 : (X + e) ^ 2 ≤ X ^ 2 + 60002 * e := by
    have := mul_le_mul_of_nonneg_right hb e0
    nlinarith only [this, e0, e1]
  linarith

/-- **The grid with IEEE arithmetic, up to 5000 pixels**: nothing is missed, for points off the inner
rows of the grid, and for all points up to 4096 pixels. -/
theorem ieee_grid_large {w h : Nat} (k : SizeOk w h) (hn : side w h ≤ 5000) :
    GeoOK (gridGeo ieee w h) w h (fun p => side w h ≤ 4096 ∨ OffRows h p) := by
  refine cover_of_axes ieee_ok k ?_
  intro a b c q o R ha hb hc hq hQ C nd
  obtain ⟨hab, hbc, hac⟩ := nondeg_ne nd
  have hs := side_bounds k
  have hnn : (side w h : ℤ) ≤ 5000 := by exact_mod_cast hn
  have n2 : (2 : ℚ) ≤ ((side w h : ℤ) : ℚ) := by exact_mod_cast hs.1
  have n5 : ((side w h : ℤ) : ℚ) ≤ 5000 := by exact_mod_cast hn
  obtain ⟨q1, q2, q3, q4⟩ := hq
  have k1 := k.w1
  have k2 := k.h1
  have bX := abs_le.mp C.bx
  have b1 := C.by1
  have b2 := C.by2
  have lx := abs_le.mp C.lx
  have ly := abs_le.mp C.ly
  have cx2 := abs_le.mp C.ex
  have cy2 := abs_le.mp C.ey
  -- the bounding vertices
  have se := super_eq k
  have hA := C.out ⟨(((w + 1) / 2 : Nat) : ℤ) - 2 * (side w h : ℤ), (((h + 1) / 2 : Nat) : ℤ) - (side w h : ℤ)⟩ (by rw [se]; simp [Tri.hasVertex])
  have hB := C.out ⟨(((w + 1) / 2 : Nat) : ℤ), (((h + 1) / 2 : Nat) : ℤ) + 2 * (side w h : ℤ)⟩ (by rw [se]; simp [Tri.hasVertex])
  have hC := C.out ⟨(((w + 1) / 2 : Nat) : ℤ) + 2 * (side w h : ℤ), (((h + 1) / 2 : Nat) : ℤ) - (side w h : ℤ)⟩ (by rw [se]; simp [Tri.hasVertex])
  have wide : (w : ℤ) ≤ side w h ∧ (h : ℤ) ≤ side w h := ⟨by exact_mod_cast hs.2.2.1, by exact_mod_cast hs.2.2.2.1⟩
  have hwi : 1 ≤ (((w + 1) / 2 : Nat) : ℤ) ∧ (((w + 1) / 2 : Nat) : ℤ) ≤ w ∧ (w : ℤ) ≤ 2 * (((w + 1) / 2 : Nat) : ℤ) ∧ 2 * (((w + 1) / 2 : Nat) : ℤ) ≤ w + 1 := by omega
  have hhi : 1 ≤ (((h + 1) / 2 : Nat) : ℤ) ∧ (((h + 1) / 2 : Nat) : ℤ) ≤ h ∧ (h : ℤ) ≤ 2 * (((h + 1) / 2 : Nat) : ℤ) ∧ 2 * (((h + 1) / 2 : Nat) : ℤ) ≤ h + 1 := by omega
  have sv : ∀ v : Pt, (newSuperTriangle w h).hasVertex v = true → _ := fun v hv => super_verts k hv
  set n : ℤ := (side w h : ℤ) with hnd
  set hw : ℤ := (((w + 1) / 2 : Nat) : ℤ) with hhw
  set hh : ℤ := (((h + 1) / 2 : Nat) : ℤ) with hhh
  push_cast at hA hB hC
  have qx0 : (0 : ℚ) ≤ q.x := by exact_mod_cast q1
  have qy0 : (0 : ℚ) ≤ q.y := by exact_mod_cast q3
  have qxw : (q.x : ℚ) ≤ w := by exact_mod_cast q2
  have qyh : (q.y : ℚ) ≤ h := by exact_mod_cast q4
  have wq : (w : ℚ) ≤ n := by exact_mod_cast wide.1
  have hq' : (h : ℚ) ≤ n := by exact_mod_cast wide.2
  have hw1 : (1 : ℚ) ≤ hw := by exact_mod_cast hwi.1
  have hw2 : (hw : ℚ) ≤ w := by exact_mod_cast hwi.2.1
  have hw3 : (w : ℚ) ≤ 2 * hw := by exact_mod_cast hwi.2.2.1
  have hw4 : 2 * (hw : ℚ) ≤ w + 1 := by exact_mod_cast hwi.2.2.2
  have hh1 : (1 : ℚ) ≤ hh := by exact_mod_cast hhi.1
  have hh2 : (hh : ℚ) ≤ h := by exact_mod_cast hhi.2.1
  have hh3 : (h : ℚ) ≤ 2 * hh := by exact_mod_cast hhi.2.2.1
  have hh4 : 2 * (hh : ℚ) ≤ h + 1 := by exact_mod_cast hhi.2.2.2
  have inside := C.inside
  set r2 := (o.x - a.x) ^ 2 + (o.y - a.y) ^ 2 with hr2
  have i64 : ieee.r64 = rne 53 := rfl
  have i32 : ieee.r32 = rne 24 := rfl
  have Hx := hi_large (n := n) (x := q.x) (c := ieee.r64 o.x) (R := R) hnn q1 (by omega) (by linarith only [bX.1, cx2.1, n2]) (by linarith only [bX.2, cx2.2]) C.R0 C.R1
      (by linarith only [lx.1, cx2.1])
  have Lx := lo_large (n := n) (x := q.x) (c := ieee.r64 o.x) (R := R) hnn q1 (by omega) (by linarith only [bX.1, cx2.1, n2]) (by linarith only [bX.2, cx2.2]) C.R0 C.R1
      (by linarith only [lx.2, cx2.2])
  have Hy := hi_large (n := n) (x := q.y) (c := ieee.r64 o.y) (R := R) hnn q3 (by omega) (by linarith only [b1, cy2.1]) (by linarith only [b2, cy2.2, n2]) C.R0 C.R1
      (by linarith only [ly.1, cy2.1])
  have Ly := lo_large (n := n) (x := q.y) (c := ieee.r64 o.y) (R := R) hnn q3 (by omega) (by linarith only [b1, cy2.1]) (by linarith only [b2, cy2.2, n2]) C.R0 C.R1
      (by linarith only [ly.2, cy2.2])
  simp only at Hx Lx Hy Ly
  have B30x : |o.x - q.x| ≤ 30000 := C.bx.trans (by linarith only [n5])
  have B30y : |o.y - q.y| ≤ 30000 := abs_le.mpr ⟨by linarith only [b1, n5], by linarith only [b2, n5]⟩
  have swap : (o.y - q.y) ^ 2 + (o.x - q.x) ^ 2 ≤ r2 := by linarith only [inside]
  have abs245 : ∀ z : ℚ, z ^ 2 ≤ 8 / 1000000 + 60002 * 1 → |z| ≤ 245 := fun z hz =>
    abs_le_of_sq_le_sq (by linarith only [hz]) (by norm_num)
  have abs1 : ∀ z : ℚ, z ^ 2 ≤ 8 / 1000000 + 60002 * 0 → |z| ≤ 1 / 300 := fun z hz =>
    abs_le_of_sq_le_sq (by norm_num at hz ⊢; linarith only [hz]) (by norm_num)
  refine ⟨box_listed2 ieee_ok k.w1 k.w2 q1 q2 Lx.1 (fun e => Lx.2 ?_) Hx.1 (Or.inl (Hx.2 ?_)),
    box_listed2 ieee_ok k.h1 k.h2 q3 q4 Ly.1 (fun e => Ly.2 ?_) Hy.1 ?_⟩
  · -- the right border
    intro hlt hnear
    have eW : (q.x : ℚ) = w := by exact_mod_cast e
    have t := tight C.ex B30x inside C.sq1 C.R0 (e := 1) (by norm_num) (by norm_num)
      (by rw [abs_of_nonneg (by linarith only [hlt])]; linarith only [hnear])
    have ty := abs_le.mp (abs245 _ t.1)
    by_contra hcon
    have hD : 8190 ≤ o.x - q.x := by
      by_contra hd
      exact hcon ⟨by linarith only [hd, hnear, cx2.2], by linarith only [hd, hnear, cx2.2, qxw, wq, n5]⟩
    refine no_far_border (n := n) (u := hw + 2 * n - q.x) (D := o.x - q.x) (s := o.y - (hh - n)) (by linarith only [bX.2, hD]) n5
      (by linarith only [eW, hw3, wq]) (by linarith only [eW, hw2]) hD (abs_le.mpr ⟨?_, ?_⟩) ?_
    · linarith only [ty.1, qy0, hh4, hq', n2]
    · linarith only [ty.2, qyh, hh3, hq', n2]
    · have := sq_nonneg (o.y - q.y)
      calc (o.x - q.x) ^ 2 ≤ r2 := by linarith only [inside, this]
        _ ≤ _ := hC
        _ = _ := by ring
  · -- vertical lines
    by_contra hcon
    have h1 : ieee.r64 o.x ≤ -8192 := by
      by_contra h; exact hcon (Or.inl (not_le.mp h))
    have h2 : ieee.r64 o.x + R ≤ q.x := by
      by_contra h; exact hcon (Or.inr (Or.inl (not_le.mp h)))
    have t := tight C.ex B30x inside C.sq1 C.R0 (e := 0) (by norm_num) (by norm_num)
      (by rw [abs_of_nonpos (by linarith only [h1, qx0])]; linarith only [h2])
    have ty := abs_le.mp (abs1 _ t.1)
    refine no_far_left (n := n) (u := q.x - hw + 2 * n) (D := q.x - o.x) (s := o.y - (hh - n)) (hw := hw) ?_ n5 hw1
      (by linarith only [hw4, wq]) (by linarith only [qx0]) (by linarith only [h1, cx2.1]) (abs_le.mpr ⟨?_, ?_⟩) ?_
    · linarith only [bX.1, h1, cx2.1, qx0]
    · linarith only [ty.1, qy0, hh4, hq', n2]
    · linarith only [ty.2, qyh, hh3, hq', n2]
    · have := sq_nonneg (o.y - q.y)
      calc (q.x - o.x) ^ 2 ≤ r2 := by linarith only [inside, this]
        _ ≤ _ := hA
        _ = _ := by ring
  · -- the upper border
    intro hlt hnear
    have eW : (q.y : ℚ) = h := by exact_mod_cast e
    have t := tight C.ey B30y swap C.sq1 C.R0 (e := 1) (by norm_num) (by norm_num)
      (by rw [abs_of_nonneg (by linarith only [hlt])]; linarith only [hnear])
    have ty := abs_le.mp (abs245 _ t.1)
    by_contra hcon
    have hD : 8190 ≤ o.y - q.y := by
      by_contra hd
      exact hcon ⟨by linarith only [hd, hnear, cy2.2], by linarith only [hd, hnear, cy2.2, qyh, hq', n5]⟩
    refine no_far_border (n := n) (u := hh + 2 * n - q.y) (D := o.y - q.y) (s := o.x - hw) (by linarith only [b2, hD]) n5
      (by linarith only [eW, hh3, hq']) (by linarith only [eW, hh2]) hD (abs_le.mpr ⟨?_, ?_⟩) ?_
    · linarith only [ty.1, qx0, hw4, wq, n2]
    · linarith only [ty.2, qxw, hw3, wq, n2]
    · have := sq_nonneg (o.x - q.x)
      calc (o.y - q.y) ^ 2 ≤ r2 := by linarith only [inside, this]
        _ ≤ _ := hB
        _ = _ := by ring
  · -- horizontal lines
    by_contra hall
    have hcon : ¬ (-8192 < ieee.r64 o.y ∨ q.y < ieee.r64 o.y + R ∨ q.y - rne 24 (ieee.r64 o.y) ≤ rne 24 R) :=
      fun h => hall (Or.inl (Hy.2 h))
    have hne : q.y ≠ h := fun h => hall (Or.inr (Or.inl h))
    have hdvd : (h : ℤ) ∣ 10 * q.y := by
      by_contra hd; exact hall (Or.inr (Or.inr hd))
    have h1 : ieee.r64 o.y ≤ -8192 := by
      by_contra h; exact hcon (Or.inl (not_le.mp h))
    have h2 : ieee.r64 o.y + R ≤ q.y := by
      by_contra h; exact hcon (Or.inr (Or.inl (not_le.mp h)))
    have h3 : rne 24 R < q.y - rne 24 (ieee.r64 o.y) := by
      by_contra h; exact hcon (Or.inr (Or.inr (not_lt.mp h)))
    have t := tight C.ey B30y swap C.sq1 C.R0 (e := 0) (by norm_num) (by norm_num)
      (by rw [abs_of_nonpos (by linarith only [h1, qy0])]; linarith only [h2])
    have tx := abs_le.mp (abs1 _ t.1)
    have hDr : (q.y - o.y) ^ 2 ≤ r2 := by have := sq_nonneg (o.x - q.x); linarith only [inside, this]
    rcases q3.lt_or_eq with hpos | hzero
    · -- an inner line
      have n30 : n ≤ 4096 := by
        rcases hQ with hQ | hQ
        · omega
        · exact absurd hdvd (hQ hpos (by omega))
      have n30q : (n : ℚ) ≤ 4096 := by exact_mod_cast n30
      have n10 : (1000 : ℚ) ≤ n := by linarith only [b1, h1, cy2.1, qy0]
      have hrow : (h : ℤ) ≤ 10 * q.y := Int.le_of_dvd (by omega) hdvd
      have hrowq : (h : ℚ) ≤ 10 * q.y := by exact_mod_cast hrow
      have oy : o.y ≤ -8191 := by linarith only [h1, cy2.1]
      have kmax : q.y - o.y ≤ 14900 := by
        rcases le_total q.x hw with hside | hside
        · have hsq : (q.x : ℚ) ≤ hw := by exact_mod_cast hside
          refine far_below (n := n) (u := q.y - hh + n) (D := q.y - o.y) (s := o.x - (hw - 2 * n)) (hh := hh) (y := q.y) n10 n30q
            (by linarith only [hh4, hq']) (by linarith only [hh4, hrowq]) (by linarith only [qyh, hh3]) rfl (abs_le.mpr ⟨?_, ?_⟩) ?_
          · linarith only [tx.1, qx0, hw4, wq, n2]
          · linarith only [tx.2, hsq]
          · calc (q.y - o.y) ^ 2 ≤ r2 := hDr
              _ ≤ _ := hA
              _ = _ := by ring
        · have hsq : (hw : ℚ) ≤ q.x := by exact_mod_cast hside
          refine far_below (n := n) (u := q.y - hh + n) (D := q.y - o.y) (s := o.x - (hw + 2 * n)) (hh := hh) (y := q.y) n10 n30q
            (by linarith only [hh4, hq']) (by linarith only [hh4, hrowq]) (by linarith only [qyh, hh3]) rfl (abs_le.mpr ⟨?_, ?_⟩) ?_
          · linarith only [tx.1, hsq]
          · linarith only [tx.2, qxw, hw3, wq, n2]
          · calc (q.y - o.y) ^ 2 ≤ r2 := hDr
              _ ≤ _ := hC
              _ = _ := by ring
      have t2 : r2 ≤ (q.y - o.y) ^ 2 + 8 / 1000000 := by
        have := t.2
        rw [add_zero, sq_abs] at this
        linarith only [this]
      -- the vertices
      have vert : ∀ v : Pt, Ok w h v → (o.x - v.x) ^ 2 + (o.y - v.y) ^ 2 = r2 →
          (hw - 2 * n ≤ v.x ∧ v.x ≤ hw + 2 * n ∧ hh - n ≤ v.y ∧ v.y ≤ q.y) ∧ |o.x - v.x| ≤ 8192 ∧ (4096 ≤ |o.x| → |o.x - v.x| ≤ 6144) := by
        intro v hv hd
        have hx4 : 4096 ≤ |o.x| → 4096 ≤ o.x := by
          intro h
          rcases le_abs.mp h with h | h
          · exact h
          · linarith only [h, tx.1, qx0]
        have up : ¬ q.y + 1 ≤ v.y := by
          intro h
          have h : (q.y : ℚ) + 1 ≤ v.y := by exact_mod_cast h
          have h0 := sq_nonneg (o.x - v.x)
          nlinarith only [h, h0, hd, t2, oy, qy0]
        rcases hv with ⟨v1, v2, v3, v4⟩ | hv
        · have v1q : (0 : ℚ) ≤ v.x := by exact_mod_cast v1
          have v2q : (v.x : ℚ) ≤ w := by exact_mod_cast v2
          exact ⟨⟨by omega, by omega, by omega, by omega⟩, abs_le.mpr
            ⟨by linarith only [tx.1, qx0, v2q, wq, n30q], by linarith only [tx.2, qxw, v1q, wq, n30q]⟩, fun _ => abs_le.mpr
            ⟨by linarith only [tx.1, qx0, v2q, wq, n30q], by linarith only [tx.2, qxw, v1q, wq, n30q]⟩⟩
        · have n0 : (0 : ℚ) < n := by linarith only [n2]
          rcases sv v hv with ⟨e1, e2⟩ | ⟨e1, e2⟩ | ⟨e1, e2⟩
          · refine ⟨⟨by omega, by omega, by omega, by omega⟩, ?_⟩
            rw [← hd, e1, e2] at hC
            rw [e1]
            push_cast at hC ⊢
            have hle : o.x ≤ hw := by
              have : n * o.x ≤ n * hw := by linarith only [hC]
              exact le_of_mul_le_mul_left this n0
            refine ⟨abs_le.mpr ⟨by linarith only [tx.1, qx0, hw4, wq, n2], by linarith only [hle, n30q]⟩, fun h4 => ?_⟩
            have := hx4 h4
            linarith only [this, hle, hw4, wq, n30q]
          · exact absurd (by omega) up
          · refine ⟨⟨by omega, by omega, by omega, by omega⟩, ?_⟩
            rw [← hd, e1, e2] at hA
            rw [e1]
            push_cast at hA ⊢
            have hle : (hw : ℚ) ≤ o.x := by
              have : n * hw ≤ n * o.x := by linarith only [hA]
              exact le_of_mul_le_mul_left this n0
            refine ⟨abs_le.mpr ⟨by linarith only [hle, n30q], by linarith only [tx.2, qxw, hw3, wq, n2]⟩, fun h4 => ?_⟩
            have := hx4 h4
            have hwb : (hw : ℚ) ≤ 2048 := by exact_mod_cast (by omega : hw ≤ 2048)
            exact abs_le.mpr ⟨by linarith only [this, hwb, n30q], by linarith only [tx.2, qxw, hw3, wq, n2]⟩
      have cb := C.centre.1
      have cc := C.centre.2
      unfold d2 at cb cc
      simp only at cb cc
      have va' := vert a ha rfl
      have va := va'.1
      have vb := (vert b hb (by rw [← cb])).1
      have vc := (vert c hc (by rw [← cc])).1
      have hD := area_box va.1 va.2.1 va.2.2.1 va.2.2.2 vb.1 vb.2.1 vb.2.2.1 vb.2.2.2 vc.1 vc.2.1 vc.2.2.1 vc.2.2.2
      have hDn : (b.x - a.x) * (c.y - a.y) - (b.y - a.y) * (c.x - a.x) ≠ 0 := by
        intro h0
        apply nd
        have h0 : ((b.x : ℚ) - a.x) * (c.y - a.y) - (b.y - a.y) * (c.x - a.x) = 0 := by exact_mod_cast h0
        unfold area2 loc
        simp only
        linarith only [h0]
      set D := (b.x - a.x) * (c.y - a.y) - (b.y - a.y) * (c.x - a.x) with hDd
      have hN : 2 * (D : ℚ) * o.y = (((b.x - a.x) * (c.x ^ 2 + c.y ^ 2 - a.x ^ 2 - a.y ^ 2) -
          (c.x - a.x) * (b.x ^ 2 + b.y ^ 2 - a.x ^ 2 - a.y ^ 2) : ℤ) : ℚ) := by
        rw [hDd]
        push_cast
        linear_combination ((b.x : ℚ) - a.x) * cc - ((c.x : ℚ) - a.x) * cb
      have hax : (hw : ℚ) - 2 * n ≤ a.x ∧ (a.x : ℚ) ≤ hw + 2 * n ∧ (hh : ℚ) - n ≤ a.y ∧ (a.y : ℚ) ≤ q.y :=
        ⟨by exact_mod_cast va.1, by exact_mod_cast va.2.1, by exact_mod_cast va.2.2.1, by exact_mod_cast va.2.2.2⟩
      have fin := rne_rows (ox := o.x) (oy := o.y) (R := R) (k := q.y - o.y) (ax := a.x) (ay := a.y) (y := q.y) (D := D)
        (by omega) rfl kmax h1 C.ey
        (abs_lt.mpr ⟨by linarith only [tx.1, qx0], by linarith only [tx.2, qxw, wq, n30q]⟩)
        va'.2.1 va'.2.2
        (abs_le.mpr ⟨by linarith only [hax.2.2.2], by linarith only [oy, hax.2.2.1, n30q, hh1, qy0]⟩)
        (by rw [← hr2]; exact hDr) hDn
        (hD.trans (by
          have e0 : 10 * q.y ≤ 9 * h := by
            obtain ⟨z, hz⟩ := hdvd
            have hlt : q.y < h := by omega
            have : z ≤ 9 := by
              by_contra hz9
              have := Int.mul_le_mul_of_nonneg_left (show 10 ≤ z by omega) (show (0 : ℤ) ≤ h by omega)
              omega
            have := Int.mul_le_mul_of_nonneg_left this (show (0 : ℤ) ≤ h by omega)
            omega
          have e1 : q.y - (hh - n) ≤ 5735 := by omega
          have e2 : 0 ≤ q.y - (hh - n) := by omega
          calc (hw + 2 * n - (hw - 2 * n)) * (q.y - (hh - n)) ≤ 16384 * 5735 := mul_le_mul (by omega) e1 e2 (by norm_num)
            _ ≤ _ := by norm_num))
        hN C.rdef (by linarith only [h2, kmax, cy2.1])
      rw [i64] at h3
      linarith only [h3, fin]
    · -- the lower border
      have hzq : (q.y : ℚ) = 0 := by exact_mod_cast hzero.symm
      rw [hzq] at t h2 h3
      have oy : o.y ≤ -8191 := by linarith only [h1, cy2.1]
      have t2 : r2 ≤ o.y ^ 2 + 8 / 1000000 := by
        have := t.2
        rw [add_zero, sub_zero, sq_abs] at this
        exact this
      -- the vertices
      have vert : ∀ v : Pt, Ok w h v → (o.x - v.x) ^ 2 + (o.y - v.y) ^ 2 = r2 →
          v = q ∨ v = ⟨hw - 2 * n, hh - n⟩ ∨ v = ⟨hw + 2 * n, hh - n⟩ := by
        intro v hv hd
        have up : ¬ 1 ≤ v.y := by
          intro h
          have h : (1 : ℚ) ≤ v.y := by exact_mod_cast h
          have h0 := sq_nonneg (o.x - v.x)
          nlinarith only [h, h0, hd, t2, oy]
        rcases hv with ⟨v1, v2, v3, v4⟩ | hv
        · left
          have vy : v.y = 0 := by omega
          have vyq : (v.y : ℚ) = 0 := by exact_mod_cast vy
          rw [vyq, sub_zero] at hd
          have vx := abs_le.mp (abs1 (o.x - v.x) (by linarith only [hd, t2]))
          have e1 : |((v.x - q.x : ℤ) : ℚ)| < 1 := by
            push_cast
            rw [abs_lt]
            constructor <;> linarith only [vx.1, vx.2, tx.1, tx.2]
          have e2 : v.x - q.x = 0 := Int.abs_lt_one_iff.mp (by exact_mod_cast e1)
          exact Pt.ext (by omega) (by omega)
        · rcases sv v hv with ⟨e1, e2⟩ | ⟨e1, e2⟩ | ⟨e1, e2⟩
          · exact Or.inr (Or.inl (Pt.ext e1 e2))
          · exact absurd (by omega) up
          · exact Or.inr (Or.inr (Pt.ext e1 e2))
      have cb := C.centre.1
      have cc := C.centre.2
      unfold d2 at cb cc
      simp only at cb cc
      have va := vert a ha rfl
      have vb := vert b hb (by rw [← cb])
      have vc := vert c hc (by rw [← cc])
      have dA : ∃ v : Pt, v = ⟨hw - 2 * n, hh - n⟩ ∧ (o.x - v.x) ^ 2 + (o.y - v.y) ^ 2 = r2 := by
        rcases va with va | va | va
        · rcases vb with vb | vb | vb
          · exact absurd (va.trans vb.symm) hab
          · exact ⟨b, vb, by rw [← cb]⟩
          · rcases vc with vc | vc | vc
            · exact absurd (va.trans vc.symm) hac
            · exact ⟨c, vc, by rw [← cc]⟩
            · exact absurd (vb.trans vc.symm) hbc
        · exact ⟨a, va, rfl⟩
        · rcases vb with vb | vb | vb
          · rcases vc with vc | vc | vc
            · exact absurd (vb.trans vc.symm) hbc
            · exact ⟨c, vc, by rw [← cc]⟩
            · exact absurd (va.trans vc.symm) hac
          · exact ⟨b, vb, by rw [← cb]⟩
          · exact absurd (va.trans vb.symm) hab
      have dC : ∃ v : Pt, v = ⟨hw + 2 * n, hh - n⟩ ∧ (o.x - v.x) ^ 2 + (o.y - v.y) ^ 2 = r2 := by
        rcases va with va | va | va
        · rcases vb with vb | vb | vb
          · exact absurd (va.trans vb.symm) hab
          · rcases vc with vc | vc | vc
            · exact absurd (va.trans vc.symm) hac
            · exact absurd (vb.trans vc.symm) hbc
            · exact ⟨c, vc, by rw [← cc]⟩
          · exact ⟨b, vb, by rw [← cb]⟩
        · rcases vb with vb | vb | vb
          · rcases vc with vc | vc | vc
            · exact absurd (vb.trans vc.symm) hbc
            · exact absurd (va.trans vc.symm) hac
            · exact ⟨c, vc, by rw [← cc]⟩
          · exact absurd (va.trans vb.symm) hab
          · exact ⟨b, vb, by rw [← cb]⟩
        · exact ⟨a, va, rfl⟩
      have dQ : ∃ v : Pt, v = q ∧ (o.x - v.x) ^ 2 + (o.y - v.y) ^ 2 = r2 := by
        rcases va with va | va | va
        · exact ⟨a, va, rfl⟩
        · rcases vb with vb | vb | vb
          · exact ⟨b, vb, by rw [← cb]⟩
          · exact absurd (va.trans vb.symm) hab
          · rcases vc with vc | vc | vc
            · exact ⟨c, vc, by rw [← cc]⟩
            · exact absurd (va.trans vc.symm) hac
            · exact absurd (vb.trans vc.symm) hbc
        · rcases vb with vb | vb | vb
          · exact ⟨b, vb, by rw [← cb]⟩
          · rcases vc with vc | vc | vc
            · exact ⟨c, vc, by rw [← cc]⟩
            · exact absurd (vb.trans vc.symm) hbc
            · exact absurd (va.trans vc.symm) hac
          · exact absurd (va.trans vb.symm) hab
      obtain ⟨_, rfl, eA⟩ := dA
      obtain ⟨_, rfl, eC'⟩ := dC
      obtain ⟨v', ev', eQ⟩ := dQ
      rw [ev'] at eQ
      push_cast at eA eC'
      rw [hzq, sub_zero] at eQ
      have n0q : (0 : ℚ) < n := by linarith only [n2]
      have ox : o.x = hw := by
        have : 8 * (n : ℚ) * (o.x - hw) = 0 := by linarith only [eA, eC']
        rcases mul_eq_zero.mp this with h | h
        · exact absurd h (by positivity)
        · linarith only [h]
      have qx : q.x = hw := by
        rw [ox] at tx
        have e1 : |((hw - q.x : ℤ) : ℚ)| < 1 := by
          push_cast
          rw [abs_lt]
          constructor <;> linarith only [tx.1, tx.2]
        have e2 : hw - q.x = 0 := Int.abs_lt_one_iff.mp (by exact_mod_cast e1)
        omega
      have qxq : (q.x : ℚ) = hw := by exact_mod_cast qx
      have r2eq : r2 = o.y ^ 2 := by rw [← eQ, ox, qxq]; ring
      have s0 : 0 < n - hh := by
        have := hs.1
        omega
      have s0q : (0 : ℚ) < n - hh := by exact_mod_cast s0
      have keq : -o.y = (4 * (n : ℚ) ^ 2 + ((n - hh : ℤ) : ℚ) ^ 2) / (2 * ((n - hh : ℤ) : ℚ)) := by
        push_cast
        rw [eq_div_iff (by positivity)]
        rw [ox, r2eq] at eA
        linarith only [eA]
      have oyk : o.y = -((4 * (n : ℚ) ^ 2 + ((n - hh : ℤ) : ℚ) ^ 2) / (2 * ((n - hh : ℤ) : ℚ))) := by rw [← keq]; ring
      set kk := (4 * (n : ℚ) ^ 2 + ((n - hh : ℤ) : ℚ) ^ 2) / (2 * ((n - hh : ℤ) : ℚ)) with hkk
      have ro : ieee.r64 o.y = - rne 53 kk := by rw [i64, oyk, rne_neg]
      have rox : ieee.r64 o.x = hw := by
        rw [i64, ox]
        exact (rne_rnd (by norm_num : 1 ≤ 53)).int (by rw [abs_of_nonneg (by omega)]; norm_num; omega)
      have fin := rne_tangent (n := n) (s := n - hh) (ax := hw - a.x) (ay := - a.y) (R := R) (by omega) hnn s0 (by omega)
        (by rw [ro] at h1; linarith only [h1])
        (by rw [← hkk, ← keq]; linarith only [b1, hzq, n5])
        (by
          rcases va with va | va | va
          · left
            rw [va, qxq, hzq]
            exact ⟨by ring, by ring⟩
          · right
            rw [va]
            push_cast
            exact ⟨Or.inl (by ring), by ring⟩
          · right
            rw [va]
            push_cast
            exact ⟨Or.inr (by ring), by ring⟩)
        (by
          have := C.ey
          rw [ro, oyk] at this
          rw [← abs_neg]
          convert this using 2
          ring)
        (by
          have := C.rdef
          rw [rox, ro, show - rne 53 kk - (a.y : ℚ) = - a.y - rne 53 kk by ring] at this
          exact this)
        C.R0
        (by
          rw [← hkk, ← keq, abs_le]
          constructor <;> [have := C.sq1; have := C.sq2] <;> linarith only [this, r2eq])
      rw [ro, rne_neg] at h3
      linarith only [h3, fin]

end Verif.Incr

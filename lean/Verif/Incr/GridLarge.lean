import Verif.Incr.GridIEEE

/-!
# The float32 grid with IEEE rounding, up to 5000 pixels

Above 1925 pixels centres and radii of `2^13` and more are so far apart in float32 that rounding can
eat up the `0.001` that grid.go adds to the radius.  The interval of the rounded circle then still
contains the coordinate, but possibly as its end.
-/

namespace Verif.Incr

open Verif.Tri Verif.Float Verif.Spec

/-- Multiples of `u`: what is less than one `u` below a multiple is at least that multiple. -/
theorem mult_le {a b u : ℚ} (u0 : 0 < u) (ha : ∃ m : ℤ, a = m * u) (hb : ∃ m : ℤ, b = m * u) (h : a - u < b) : a ≤ b := by
  obtain ⟨m, rfl⟩ := ha
  obtain ⟨l, rfl⟩ := hb
  have h1 : ((m : ℚ) - 1) * u < l * u := by linarith
  have h2 : ((m - 1 : ℤ) : ℚ) < l := by push_cast; exact lt_of_mul_lt_mul_right h1 u0.le
  have h3 : m - 1 < l := by exact_mod_cast h2
  have h4 : (m : ℚ) ≤ l := by exact_mod_cast (by omega : m ≤ l)
  exact mul_le_mul_of_nonneg_right h4 u0.le

theorem mult_sub {a b u : ℚ} (ha : ∃ m : ℤ, a = m * u) (hb : ∃ m : ℤ, b = m * u) : ∃ m : ℤ, a - b = m * u := by
  obtain ⟨m, rfl⟩ := ha
  obtain ⟨l, rfl⟩ := hb
  exact ⟨m - l, by push_cast; ring⟩

theorem mult_add {a b u : ℚ} (ha : ∃ m : ℤ, a = m * u) (hb : ∃ m : ℤ, b = m * u) : ∃ m : ℤ, a + b = m * u := by
  obtain ⟨m, rfl⟩ := ha
  obtain ⟨l, rfl⟩ := hb
  exact ⟨m + l, by push_cast; ring⟩

/-- Multiples of `2^e / 2^23` from the size. -/
theorem rne_mult' {q u : ℚ} (e : ℕ) (h : 2 ^ e ≤ |q|) (hu : u = (2 : ℚ) ^ e / 2 ^ 23) : ∃ m : ℤ, rne 24 q = m * u := by
  subst hu; exact rne_mult h

theorem int_mult (x : ℤ) (d : ℕ) (hd : d ≠ 0) : ∃ m : ℤ, (x : ℚ) = m * (1 / (d : ℚ)) :=
  ⟨x * d, by have : (d : ℚ) ≠ 0 := by exact_mod_cast hd
             push_cast; field_simp⟩

/-- The stored `0.001`. -/
theorem k_bounds : (999 : ℚ) / 1000000 ≤ rne 24 (1 / 1000) ∧ rne 24 (1 / 1000) ≤ 1001 / 1000000 := by
  have K : Rnd 24 (rne 24) := rne_rnd (by norm_num)
  have k1 : |rne 24 (1 / 1000) - 1 / 1000| ≤ 1 / 1000000 := (K.err _).trans (by norm_num [abs_of_pos])
  have k1 := abs_le.mp k1
  constructor <;> linarith

/-- What adding `0.001` to a large radius gives. -/
theorem gain {R : ℚ} (h1 : 8191 ≤ R) (h2 : R < 32767) :
    let r := rne 24 R
    let rad := rne 24 (r + rne 24 (1 / 1000))
    (r < 8192 ∧ R + 1 / 2048 + 1 / 50000 ≤ rad ∧ ∃ m : ℤ, rad = m * (1 / 2048)) ∨
    (8192 ≤ r ∧ r < 16384 ∧ (∃ m : ℤ, r = m * (1 / 1024)) ∧ (∃ m : ℤ, rad = m * (1 / 1024)) ∧ r + 1 / 1024 ≤ rad ∧ R - 1 / 2048 ≤ r) ∨
      (16384 ≤ r ∧ (∃ m : ℤ, r = m * (1 / 512)) ∧ (∃ m : ℤ, rad = m * (1 / 512)) ∧ r + 1 / 512 ≤ rad ∧ R - 1 / 1024 ≤ r) := by
  intro r rad
  have K : Rnd 24 (rne 24) := rne_rnd (by norm_num)
  obtain ⟨k1, k2⟩ := k_bounds
  set k := rne 24 (1 / 1000) with hk
  have e15 : ∀ q : ℚ, |q| < 32768 → |rne 24 q - q| ≤ 1 / 1024 := fun q hq =>
    (rne_err_lt (e := 15) (by norm_num; exact hq)).trans (by norm_num)
  have e14 : ∀ q : ℚ, |q| < 16384 → |rne 24 q - q| ≤ 1 / 2048 := fun q hq =>
    (rne_err_lt (e := 14) (by norm_num; exact hq)).trans (by norm_num)
  have e13 : ∀ q : ℚ, |q| < 8192 → |rne 24 q - q| ≤ 1 / 4096 := fun q hq =>
    (rne_err_lt (e := 13) (by norm_num; exact hq)).trans (by norm_num)
  have rep : rne 24 r = r := K.fix _ (rne_rep 24 R)
  have eR := abs_le.mp (e15 R (abs_lt.mpr ⟨by linarith, by linarith⟩))
  have r0 : 8190 ≤ r := by show 8190 ≤ rne 24 R; linarith
  have r1 : r < 32767 + 1 / 1024 := by show rne 24 R < _; linarith
  have mr : r ≤ rad := by
    have := K.mono r (r + k) (by linarith)
    rwa [rep] at this
  by_cases s1 : r < 8192
  · left
    refine ⟨s1, ?_, rne_mult' (q := r + k) (u := 1 / 2048) 12 (by rw [abs_of_nonneg (by linarith)]; norm_num; linarith) (by norm_num)⟩
    have R1 : R < 8192 := by
      by_contra hc
      have := K.int_le (x := R) (n := 8192) (by norm_num) (by push_cast; linarith)
      push_cast at this
      linarith
    have e1 := abs_le.mp (e13 R (abs_lt.mpr ⟨by linarith, by linarith⟩))
    by_cases s3 : r + k < 8192
    · have e2 := abs_le.mp (e13 (r + k) (abs_lt.mpr ⟨by linarith, by linarith⟩))
      have hr : r = rne 24 R := rfl
      have hrad : rad = rne 24 (r + k) := rfl
      rw [← hr] at e1
      rw [← hrad] at e2
      linarith
    · have e2 := K.int_le (x := r + k) (n := 8192) (by norm_num) (by push_cast; linarith)
      obtain ⟨m, hm⟩ := rne_mult' (q := R) (u := 1 / 2048) 12 (by rw [abs_of_nonneg (by linarith)]; norm_num; linarith) (by norm_num)
      have h3 : r ≤ 8192 - 1 / 2048 := by
        have hmm : (m : ℚ) < ((16777216 : ℤ) : ℚ) := by
          have : r = m * (1 / 2048) := hm
          push_cast
          linarith
        have : m < 16777216 := by exact_mod_cast hmm
        have h5 : (m : ℚ) ≤ ((16777215 : ℤ) : ℚ) := by exact_mod_cast (by omega)
        have : r = m * (1 / 2048) := hm
        push_cast at h5
        rw [this]
        linarith
      have hr : r = rne 24 R := rfl
      have hrad : rad = rne 24 (r + k) := rfl
      rw [← hr] at e1
      rw [← hrad] at e2
      push_cast at e2
      by_cases s4 : r + 1 / 2048 = 8192
      · -- one step below 8192
        have e3 := abs_le.mp (e14 (r + k) (abs_lt.mpr ⟨by linarith, by linarith⟩))
        rw [← hrad] at e3
        have hm2 := rne_mult' (q := r + k) (u := 1 / 1024) 13 (by rw [abs_of_nonneg (by linarith)]; norm_num; linarith) (by norm_num)
        have : (8192 : ℚ) + 1 / 1024 ≤ rad := mult_le (u := 1 / 1024) (by norm_num) ⟨8192 * 1024 + 1, by norm_num⟩ hm2 (by linarith)
        linarith
      · have h4 : r ≤ 8192 - 2 / 2048 := by
          have hmm : (m : ℚ) < ((16777215 : ℤ) : ℚ) := by
            have h6 : r = m * (1 / 2048) := hm
            rcases lt_or_eq_of_le h3 with h7 | h7
            · push_cast; linarith
            · exact absurd (by linarith) s4
          have : m < 16777215 := by exact_mod_cast hmm
          have h5 : (m : ℚ) ≤ ((16777214 : ℤ) : ℚ) := by exact_mod_cast (by omega)
          have : r = m * (1 / 2048) := hm
          push_cast at h5
          rw [this]
          linarith
        linarith
  · right
    have s1 := not_lt.mp s1
    by_cases s2 : r < 16384
    · left
      have R2 : R < 16384 := by
        by_contra hc
        have := K.int_le (x := R) (n := 16384) (by norm_num) (by push_cast; linarith)
        push_cast at this
        linarith
      have hm := rne_mult' (q := r) (u := 1 / 1024) 13 (by rw [abs_of_nonneg (by linarith)]; norm_num; linarith) (by norm_num)
      have hm2 := rne_mult' (q := r + k) (u := 1 / 1024) 13 (by rw [abs_of_nonneg (by linarith)]; norm_num; linarith) (by norm_num)
      rw [rep] at hm
      have e1 := abs_le.mp (e14 R (abs_lt.mpr ⟨by linarith, by linarith⟩))
      refine ⟨s1, s2, hm, hm2, mult_le (by norm_num) (mult_add hm ⟨1, by norm_num⟩) hm2 ?_, by show _ ≤ rne 24 R; linarith⟩
      have h3 : r + k < 32768 := by linarith
      by_cases s3 : r + k < 16384
      · have e2 := abs_le.mp (e14 (r + k) (abs_lt.mpr ⟨by linarith, by linarith⟩))
        show _ < rne 24 (r + k)
        linarith
      · have e2 := K.int_le (x := r + k) (n := 16384) (by norm_num) (by push_cast; linarith)
        push_cast at e2
        show _ < rne 24 (r + k)
        linarith
    · right
      have s2 := not_lt.mp s2
      have hm := rne_mult' (q := r) (u := 1 / 512) 14 (by rw [abs_of_nonneg (by linarith)]; norm_num; linarith) (by norm_num)
      have hm2 := rne_mult' (q := r + k) (u := 1 / 512) 14 (by rw [abs_of_nonneg (by linarith)]; norm_num; linarith) (by norm_num)
      rw [rep] at hm
      refine ⟨s2, hm, hm2, mult_le (by norm_num) (mult_add hm ⟨1, by norm_num⟩) hm2 ?_, by show _ ≤ rne 24 R; linarith⟩
      have e2 := abs_le.mp (e15 (r + k) (abs_lt.mpr ⟨by linarith, by linarith⟩))
      show _ < rne 24 (r + k)
      linarith

/-- The upper end of the interval. -/
theorem hi_large {n x : ℤ} (hn : n ≤ 5000) {c R : ℚ} (x0 : 0 ≤ x) (x1 : x ≤ n)
    (c1 : x - (17 / 4 * n + 9) ≤ c) (c2 : c ≤ x + (4 * n + 9)) (hR0 : 0 ≤ R) (hR : R ≤ 25 / 4 * n + 17)
    (h2 : x ≤ c + R + 1 / 100000) :
    let z2 := rne 24 (rne 24 c + rne 24 (rne 24 R + rne 24 (1 / 1000)))
    x ≤ z2 ∧ ((-8192 < c ∨ x < c + R ∨ x - rne 24 c ≤ rne 24 R) → x + 1 / 100000 ≤ z2) := by
  intro z2
  have K : Rnd 24 (rne 24) := rne_rnd (by norm_num)
  have hx0 : (0 : ℚ) ≤ x := by exact_mod_cast x0
  have hx1 : (x : ℚ) ≤ n := by exact_mod_cast x1
  have hnq : (n : ℚ) ≤ 5000 := by exact_mod_cast hn
  have k1 := k_bounds
  have e15 : ∀ q : ℚ, |q| < 32768 → |rne 24 q - q| ≤ 1 / 1024 := fun q hq =>
    (rne_err_lt (e := 15) (by norm_num; exact hq)).trans (by norm_num)
  have e14 : ∀ q : ℚ, |q| < 16384 → |rne 24 q - q| ≤ 1 / 2048 := fun q hq =>
    (rne_err_lt (e := 14) (by norm_num; exact hq)).trans (by norm_num)
  have e13 : ∀ q : ℚ, |q| < 8192 → |rne 24 q - q| ≤ 1 / 4096 := fun q hq =>
    (rne_err_lt (e := 13) (by norm_num; exact hq)).trans (by norm_num)
  have e12 : ∀ q : ℚ, |q| < 4096 → |rne 24 q - q| ≤ 1 / 8192 := fun q hq =>
    (rne_err_lt (e := 12) (by norm_num; exact hq)).trans (by norm_num)
  have xm : ∀ d : ℕ, d ≠ 0 → ∃ m : ℤ, (x : ℚ) = m * (1 / (d : ℚ)) := int_mult x
  -- what is enough
  suffices H : (x : ℚ) + 1 / 100000 ≤ z2 ∨ (c ≤ -8192 ∧ x ≤ rne 24 c + rne 24 (rne 24 R + rne 24 (1 / 1000)) ∧
      ((x < c + R ∨ x - rne 24 c ≤ rne 24 R) → x + 1 / 1024 ≤ rne 24 c + rne 24 (rne 24 R + rne 24 (1 / 1000)))) by
    rcases H with H | ⟨H0, H1, H2⟩
    · exact ⟨by linarith, fun _ => H⟩
    · refine ⟨K.int_le (by rw [abs_le]; constructor <;> omega) H1, fun hh => ?_⟩
      have h3 := H2 (by rcases hh with hh | hh | hh; · linarith
                        · exact Or.inl hh
                        · exact Or.inr hh)
      have m := K.mono _ _ h3
      rw [K.fix (x + 1 / 1024) ⟨1024 * x + 1, -10, by rw [abs_le]; constructor <;> omega, by push_cast; norm_num; ring⟩] at m
      have : z2 = rne 24 (rne 24 c + rne 24 (rne 24 R + rne 24 (1 / 1000))) := rfl
      rw [this]
      linarith
  set k := rne 24 (1 / 1000) with hk
  have ec := abs_le.mp (e15 c (abs_lt.mpr ⟨by linarith, by linarith⟩))
  have eR := abs_le.mp (e15 R (abs_lt.mpr ⟨by linarith, by linarith⟩))
  have erad := abs_le.mp (e15 (rne 24 R + k) (abs_lt.mpr ⟨by linarith, by linarith⟩))
  -- conclusions from a bound on the sum
  have fin13 : (x : ℚ) + 2565 / 10000000 ≤ rne 24 c + rne 24 (rne 24 R + k) → (x : ℚ) + 1 / 100000 ≤ z2 := by
    intro h
    have m := K.mono _ _ h
    have e := abs_le.mp (e13 (x + 2565 / 10000000) (abs_lt.mpr ⟨by linarith, by linarith⟩))
    have : z2 = rne 24 (rne 24 c + rne 24 (rne 24 R + k)) := rfl
    rw [this]
    linarith
  by_cases far : |c - x| + 1 ≤ R
  · left
    apply fin13
    have f2 := neg_abs_le (c - x)
    linarith
  have near := not_le.mp far
  have dc : |c - x| ≤ 17 / 4 * n + 9 := abs_le.mpr ⟨by linarith, by linarith⟩
  by_cases right : (x : ℚ) ≤ c
  · left
    apply fin13
    have m1 : (x : ℚ) ≤ rne 24 c := K.int_le (by rw [abs_le]; constructor <;> omega) right
    have m2 : k ≤ rne 24 (rne 24 R + k) := by
      have h0 : k ≤ rne 24 R + k := by linarith [K.nonneg hR0]
      have := K.mono _ _ h0
      rwa [show rne 24 k = k from K.fix _ (rne_rep 24 _)] at this
    linarith
  have right := not_le.mp right
  rw [abs_of_nonpos (by linarith)] at near dc
  by_cases small : R < 8191
  · left
    apply fin13
    have ec := abs_le.mp (e13 c (abs_lt.mpr ⟨by linarith, by linarith⟩))
    have eR := abs_le.mp (e13 R (abs_lt.mpr ⟨by linarith, by linarith⟩))
    have erad := abs_le.mp (e13 (rne 24 R + k) (abs_lt.mpr ⟨by linarith, by linarith⟩))
    linarith
  have small := not_lt.mp small
  have G := gain small (by linarith)
  simp only at G
  rw [← hk] at G
  set r := rne 24 R with hr
  set rad := rne 24 (r + k) with hrad
  set cc := rne 24 c with hcc
  by_cases big : -8192 < c
  · left
    have ec := abs_le.mp (e13 c (abs_lt.mpr ⟨by linarith, by linarith⟩))
    rw [← hcc] at ec
    have hg : R + 1 / 2048 ≤ rad ∧ ∃ m : ℤ, rad = m * (1 / 2048) := by
      rcases G with ⟨_, g, m⟩ | ⟨_, _, _, ⟨m, hm⟩, g, g2⟩ | ⟨g, _⟩
      · exact ⟨by linarith, m⟩
      · exact ⟨by linarith, 2 * m, by rw [hm]; push_cast; ring⟩
      · linarith
    by_cases xs : x ≤ 4095
    · have xs : (x : ℚ) ≤ 4095 := by exact_mod_cast xs
      have hs : (x : ℚ) + 23 / 100000 ≤ cc + rad := by linarith
      have m := K.mono _ _ hs
      have e := abs_le.mp (e12 (x + 23 / 100000) (abs_lt.mpr ⟨by linarith, by linarith⟩))
      have : z2 = rne 24 (cc + rad) := rfl
      rw [this]
      linarith
    · by_cases cs : c ≤ -4096
      · have mc := rne_mult' (q := c) (u := 1 / 2048) 12 (by rw [abs_of_nonpos (by linarith)]; norm_num; linarith) (by norm_num)
        rw [← hcc] at mc
        have xm' := xm 2048 (by norm_num)
        have h3 : (x : ℚ) + 1 / 2048 ≤ cc + rad :=
          mult_le (u := 1 / 2048) (by norm_num) (mult_add (by exact_mod_cast xm') ⟨1, by norm_num⟩) (mult_add mc hg.2) (by linarith)
        exact fin13 (by linarith)
      · have cs := not_le.mp cs
        have ec := abs_le.mp (e12 c (abs_lt.mpr ⟨by linarith, by linarith⟩))
        rw [← hcc] at ec
        exact fin13 (by linarith)
  · right
    have big := not_lt.mp big
    have xm' := xm 1024 (by norm_num)
    have xm2 : ∃ m : ℤ, (x : ℚ) = m * (1 / 1024) := by exact_mod_cast xm'
    have xm3 : ∃ m : ℤ, (x : ℚ) = m * (1 / 512) := by have := xm 512 (by norm_num); exact_mod_cast this
    have mc := rne_mult' (q := c) (u := 1 / 1024) 13 (by rw [abs_of_nonpos (by linarith)]; norm_num; linarith) (by norm_num)
    rw [← hcc] at mc
    refine ⟨big, ?_⟩
    rcases G with ⟨g1, g2, _⟩ | ⟨g1, g2, g3, g4, g5, g6⟩ | ⟨g1, g2, g3, g4, g5⟩
    · exfalso
      have mR := rne_mult' (q := R) (u := 1 / 2048) 12 (by rw [abs_of_nonneg (by linarith)]; norm_num; linarith) (by norm_num)
      rw [← hr] at mR
      have eR' : R - 1 / 4096 ≤ r := by
        by_cases h8 : R < 8192
        · have e := abs_le.mp (e13 R (abs_lt.mpr ⟨by linarith, by linarith⟩))
          rw [← hr] at e
          linarith
        · have := K.int_le (x := R) (n := 8192) (by norm_num) (by push_cast; linarith)
          push_cast at this
          linarith
      have : (8192 : ℚ) ≤ r := mult_le (u := 1 / 2048) (by norm_num) ⟨8192 * 2048, by norm_num⟩ mR (by linarith)
      linarith
    · by_cases c14 : -16384 < c
      · have ec := abs_le.mp (e14 c (abs_lt.mpr ⟨by linarith, by linarith⟩))
        rw [← hcc] at ec
        refine ⟨mult_le (u := 1 / 1024) (by norm_num) xm2 (mult_add mc g4) (by linarith), ?_⟩
        rintro (h | h)
        · exact mult_le (u := 1 / 1024) (by norm_num) (mult_add xm2 ⟨1, by norm_num⟩) (mult_add mc g4) (by linarith)
        · linarith
      · exfalso
        have c14 := not_lt.mp c14
        have mR := g3
        have : (16384 : ℚ) ≤ r := mult_le (u := 1 / 1024) (by norm_num) ⟨16384 * 1024, by norm_num⟩ mR (by linarith)
        linarith
    · by_cases c14 : -16384 < c
      · have ec := abs_le.mp (e14 c (abs_lt.mpr ⟨by linarith, by linarith⟩))
        rw [← hcc] at ec
        have g3' : ∃ m : ℤ, rad = m * (1 / 1024) := by
          obtain ⟨m, hm⟩ := g3
          exact ⟨2 * m, by rw [hm]; push_cast; ring⟩
        have : (x : ℚ) + 1 / 1024 ≤ cc + rad :=
          mult_le (u := 1 / 1024) (by norm_num) (mult_add xm2 ⟨1, by norm_num⟩) (mult_add mc g3') (by linarith)
        exact ⟨by linarith, fun _ => this⟩
      · have c14 := not_lt.mp c14
        have mc := rne_mult' (q := c) (u := 1 / 512) 14 (by rw [abs_of_nonpos (by linarith)]; norm_num; linarith) (by norm_num)
        rw [← hcc] at mc
        refine ⟨mult_le (u := 1 / 512) (by norm_num) xm3 (mult_add mc g3) (by linarith), ?_⟩
        rintro (h | h)
        · have : (x : ℚ) + 1 / 512 ≤ cc + rad :=
            mult_le (u := 1 / 512) (by norm_num) (mult_add xm3 ⟨1, by norm_num⟩) (mult_add mc g3) (by linarith)
          linarith
        · linarith

/-- The lower end of the interval. -/
theorem lo_large {n x : ℤ} (hn : n ≤ 5000) {c R : ℚ} (x0 : 0 ≤ x) (x1 : x ≤ n)
    (c1 : x - (17 / 4 * n + 9) ≤ c) (c2 : c ≤ x + (4 * n + 9)) (hR0 : 0 ≤ R) (hR : R ≤ 25 / 4 * n + 17)
    (h1 : c - R - 1 / 100000 ≤ x) :
    let z1 := rne 24 (rne 24 c - rne 24 (rne 24 R + rne 24 (1 / 1000)))
    z1 ≤ x ∧ ((x < c → R < c - x + 1 → R < 8192 ∧ c < 16384) → z1 ≤ x - 1 / 100000) := by
  intro z1
  have K : Rnd 24 (rne 24) := rne_rnd (by norm_num)
  have hx0 : (0 : ℚ) ≤ x := by exact_mod_cast x0
  have hx1 : (x : ℚ) ≤ n := by exact_mod_cast x1
  have hnq : (n : ℚ) ≤ 5000 := by exact_mod_cast hn
  have k1 := k_bounds
  have e15 : ∀ q : ℚ, |q| < 32768 → |rne 24 q - q| ≤ 1 / 1024 := fun q hq =>
    (rne_err_lt (e := 15) (by norm_num; exact hq)).trans (by norm_num)
  have e14 : ∀ q : ℚ, |q| < 16384 → |rne 24 q - q| ≤ 1 / 2048 := fun q hq =>
    (rne_err_lt (e := 14) (by norm_num; exact hq)).trans (by norm_num)
  have e13 : ∀ q : ℚ, |q| < 8192 → |rne 24 q - q| ≤ 1 / 4096 := fun q hq =>
    (rne_err_lt (e := 13) (by norm_num; exact hq)).trans (by norm_num)
  have e12 : ∀ q : ℚ, |q| < 4096 → |rne 24 q - q| ≤ 1 / 8192 := fun q hq =>
    (rne_err_lt (e := 12) (by norm_num; exact hq)).trans (by norm_num)
  have xm : ∀ d : ℕ, d ≠ 0 → ∃ m : ℤ, (x : ℚ) = m * (1 / (d : ℚ)) := int_mult x
  set k := rne 24 (1 / 1000) with hk
  have hz : z1 = rne 24 (rne 24 c - rne 24 (rne 24 R + k)) := rfl
  -- conclusions from a bound on the difference
  have fin13 : rne 24 c - rne 24 (rne 24 R + k) ≤ (x : ℚ) - 2565 / 10000000 → z1 ≤ (x : ℚ) - 1 / 100000 := by
    intro h
    have m := K.mono _ _ h
    have e := abs_le.mp (e13 (x - 2565 / 10000000) (abs_lt.mpr ⟨by linarith, by linarith⟩))
    rw [hz]
    linarith
  have both : z1 ≤ (x : ℚ) - 1 / 100000 → z1 ≤ x ∧ ((x < c → R < c - x + 1 → R < 8192 ∧ c < 16384) → z1 ≤ x - 1 / 100000) :=
    fun h => ⟨by linarith, fun _ => h⟩
  have ec := abs_le.mp (e15 c (abs_lt.mpr ⟨by linarith, by linarith⟩))
  have eR := abs_le.mp (e15 R (abs_lt.mpr ⟨by linarith, by linarith⟩))
  have erad := abs_le.mp (e15 (rne 24 R + k) (abs_lt.mpr ⟨by linarith, by linarith⟩))
  by_cases far : |c - x| + 1 ≤ R
  · apply both
    apply fin13
    have f2 := le_abs_self (c - x)
    linarith
  have near := not_le.mp far
  have dc : |c - x| ≤ 17 / 4 * n + 9 := abs_le.mpr ⟨by linarith, by linarith⟩
  by_cases left : c ≤ (x : ℚ)
  · apply both
    apply fin13
    have m1 : rne 24 c ≤ (x : ℚ) := K.le_int (by rw [abs_le]; constructor <;> omega) left
    have m2 : k ≤ rne 24 (rne 24 R + k) := by
      have h0 : k ≤ rne 24 R + k := by linarith [K.nonneg hR0]
      have := K.mono _ _ h0
      rwa [show rne 24 k = k from K.fix _ (rne_rep 24 _)] at this
    linarith
  have left := not_le.mp left
  rw [abs_of_nonneg (by linarith)] at near dc
  have xm2 : ∃ m : ℤ, (x : ℚ) = m * (1 / 2048) := by have := xm 2048 (by norm_num); exact_mod_cast this
  have xm4 : ∃ m : ℤ, (x : ℚ) = m * (1 / 1024) := by have := xm 1024 (by norm_num); exact_mod_cast this
  have xm5 : ∃ m : ℤ, (x : ℚ) = m * (1 / 512) := by have := xm 512 (by norm_num); exact_mod_cast this
  by_cases small : R < 8191
  · apply both
    apply fin13
    have eR := abs_le.mp (e13 R (abs_lt.mpr ⟨by linarith, by linarith⟩))
    have erad := abs_le.mp (e13 (rne 24 R + k) (abs_lt.mpr ⟨by linarith, by linarith⟩))
    by_cases c13 : c < 8192
    · have ec := abs_le.mp (e13 c (abs_lt.mpr ⟨by linarith, by linarith⟩))
      linarith
    · have c13 := not_lt.mp c13
      have ec := abs_le.mp (e14 c (abs_lt.mpr ⟨by linarith, by linarith⟩))
      by_cases r12 : rne 24 R + k < 4096
      · have R12 : R < 4096 := by
          by_contra hc
          have := K.int_le (x := R) (n := 4096) (by norm_num) (by push_cast; linarith)
          push_cast at this
          linarith
        have r0 := K.nonneg hR0
        have eR := abs_le.mp (e12 R (abs_lt.mpr ⟨by linarith, by linarith⟩))
        have erad := abs_le.mp (e12 (rne 24 R + k) (abs_lt.mpr ⟨by linarith, by linarith⟩))
        linarith
      · have r12 := not_lt.mp r12
        have mc := rne_mult' (q := c) (u := 1 / 2048) 12 (by rw [abs_of_nonneg (by linarith)]; norm_num; linarith) (by norm_num)
        have mr := rne_mult' (q := rne 24 R + k) (u := 1 / 2048) 12 (by rw [abs_of_nonneg (by linarith)]; norm_num; linarith) (by norm_num)
        have : rne 24 c - rne 24 (rne 24 R + k) ≤ (x : ℚ) - 1 / 2048 :=
          mult_le (u := 1 / 2048) (by norm_num) (mult_sub mc mr) (mult_sub xm2 ⟨1, by norm_num⟩) (by linarith)
        linarith
  have small := not_lt.mp small
  have G := gain small (by linarith)
  simp only at G
  rw [← hk] at G
  set r := rne 24 R with hr
  set rad := rne 24 (r + k) with hrad
  set cc := rne 24 c with hcc
  by_cases R13 : R < 8192
  · -- still a margin
    apply both
    apply fin13
    have eR := abs_le.mp (e13 R (abs_lt.mpr ⟨by linarith, by linarith⟩))
    rw [← hr] at eR
    have hg : R + 1 / 2048 + 1 / 50000 ≤ rad ∧ ∃ m : ℤ, rad = m * (1 / 2048) := by
      rcases G with ⟨_, g, m⟩ | ⟨_, _, _, ⟨m, hm⟩, g, g2⟩ | ⟨g, _⟩
      · exact ⟨by linarith, m⟩
      · exact ⟨by linarith, 2 * m, by rw [hm]; push_cast; ring⟩
      · linarith
    by_cases c13 : c < 8192
    · have ec := abs_le.mp (e13 c (abs_lt.mpr ⟨by linarith, by linarith⟩))
      rw [← hcc] at ec
      have x2 : (x : ℚ) < 3 := by linarith
      have mc := rne_mult' (q := c) (u := 1 / 2048) 12 (by rw [abs_of_nonneg (by linarith)]; norm_num; linarith) (by norm_num)
      have : cc - rad ≤ (x : ℚ) - 1 / 2048 :=
        mult_le (u := 1 / 2048) (by norm_num) (mult_sub mc hg.2) (mult_sub xm2 ⟨1, by norm_num⟩) (by linarith)
      linarith
    · have c13 := not_lt.mp c13
      have ec := abs_le.mp (e14 c (abs_lt.mpr ⟨by linarith, by linarith⟩))
      rw [← hcc] at ec
      have mc := rne_mult' (q := c) (u := 1 / 2048) 12 (by rw [abs_of_nonneg (by linarith)]; norm_num; linarith) (by norm_num)
      have : cc - rad ≤ (x : ℚ) - 1 / 2048 :=
        mult_le (u := 1 / 2048) (by norm_num) (mult_sub mc hg.2) (mult_sub xm2 ⟨1, by norm_num⟩) (by linarith)
      linarith
  have R13 := not_lt.mp R13
  refine ⟨?_, fun h => absurd (h left near).1 (by linarith)⟩
  apply K.le_int (by rw [abs_le]; constructor <;> omega)
  show cc - rad ≤ x
  rcases G with ⟨g1, _⟩ | ⟨g1, g2, g3, g4, g5, g6⟩ | ⟨g1, g2, g3, g4, g5⟩
  · exfalso
    have := K.int_le (x := R) (n := 8192) (by norm_num) (by push_cast; linarith)
    push_cast at this
    linarith
  · by_cases c13 : c < 8192
    · have ec := abs_le.mp (e13 c (abs_lt.mpr ⟨by linarith, by linarith⟩))
      rw [← hcc] at ec
      linarith
    · have c13 := not_lt.mp c13
      have mc := rne_mult' (q := c) (u := 1 / 1024) 13 (by rw [abs_of_nonneg (by linarith)]; norm_num; linarith) (by norm_num)
      exact mult_le (u := 1 / 1024) (by norm_num) (mult_sub mc g4) xm4 (by linarith)
  · by_cases c14 : c < 16384
    · have ec := abs_le.mp (e14 c (abs_lt.mpr ⟨by linarith, by linarith⟩))
      rw [← hcc] at ec
      linarith
    · have c14 := not_lt.mp c14
      have mc := rne_mult' (q := c) (u := 1 / 512) 14 (by rw [abs_of_nonneg (by linarith)]; norm_num; linarith) (by norm_num)
      exact mult_le (u := 1 / 512) (by norm_num) (mult_sub mc g3) xm5 (by linarith)

section axis

variable {F : FloatOps} {p : Nat} (K : FloatOK F p) {W : Nat} (W1 : 1 ≤ W) (W2 : W ≤ 8191)

include K W1 W2

omit W2 in
theorem box_a {x : ℤ} (x0 : 0 ≤ x) : (10 * (x : ℚ) / W) * (1 - 1 / 2 ^ 51) ≤ F.r64 (x / boxPixels F W) ∧
    F.r64 (x / boxPixels F W) ≤ (10 * (x : ℚ) / W) * (1 + 1 / 2 ^ 51) := by
  obtain ⟨c1, c2, c0⟩ := box_bounds K W1
  have hx0 : (0 : ℚ) ≤ x := by exact_mod_cast x0
  have hW : (1 : ℚ) ≤ W := by exact_mod_cast W1
  have W0 : (0 : ℚ) < W := by linarith
  have a0 : (0 : ℚ) ≤ x / boxPixels F W := by positivity
  have k1 := K.r64.lo a0
  have k2 := K.r64.hi a0
  set b := boxPixels F W
  have l : (10 * (x : ℚ) / W) * (1 - 1 / 2 ^ 52) ≤ x / b := by
    rw [le_div_iff₀ c0]
    calc 10 * (x : ℚ) / W * (1 - 1 / 2 ^ 52) * b ≤ 10 * (x : ℚ) / W * (1 - 1 / 2 ^ 52) * ((W : ℚ) / 10 * (1 + 1 / 2 ^ 53)) := by
          apply mul_le_mul_of_nonneg_left c2
          apply mul_nonneg (by positivity); norm_num
      _ = (x : ℚ) * ((1 - 1 / 2 ^ 52) * (1 + 1 / 2 ^ 53)) := by field_simp
      _ ≤ (x : ℚ) * 1 := by gcongr; norm_num
      _ = (x : ℚ) := by ring
  have u : x / b ≤ (10 * (x : ℚ) / W) * (1 + 1 / 2 ^ 52) := by
    rw [div_le_iff₀ c0]
    calc (x : ℚ) = x * 1 := by ring
      _ ≤ x * ((1 + 1 / 2 ^ 52) * (1 - 1 / 2 ^ 53)) := by gcongr; norm_num
      _ = 10 * (x : ℚ) / W * (1 + 1 / 2 ^ 52) * ((W : ℚ) / 10 * (1 - 1 / 2 ^ 53)) := by field_simp
      _ ≤ 10 * (x : ℚ) / W * (1 + 1 / 2 ^ 52) * b := by
          apply mul_le_mul_of_nonneg_left c1
          positivity
  have t0 : 0 ≤ 10 * (x : ℚ) / W := by positivity
  set t := 10 * (x : ℚ) / W
  constructor
  · calc t * (1 - 1 / 2 ^ 51) ≤ t * (1 - 1 / 2 ^ 52) * (1 - 1 / 2 ^ 53) := by rw [mul_assoc]; gcongr; norm_num
      _ ≤ x / b * (1 - 1 / 2 ^ 53) := by apply mul_le_mul_of_nonneg_right l; norm_num
      _ ≤ _ := k1
  · calc _ ≤ x / b * (1 + 1 / 2 ^ 53) := k2
      _ ≤ t * (1 + 1 / 2 ^ 52) * (1 + 1 / 2 ^ 53) := by gcongr
      _ ≤ t * (1 + 1 / 2 ^ 51) := by rw [mul_assoc]; gcongr; norm_num

/-- A coordinate of `[z1, z2]` is in a listed box, if it keeps a distance from `z2` where it is the
first of its box, and from `z1` at the end of the image. -/
theorem box_listed2 {x : ℤ} (x0 : 0 ≤ x) (x1 : x ≤ W) {z1 z2 : ℚ} (h1 : z1 ≤ x) (h1' : x = W → z1 ≤ x - 1 / 100000)
    (h2 : x ≤ z2) (h2' : x + 1 / 100000 ≤ z2 ∨ x = W ∨ ¬ (W : ℤ) ∣ 10 * x) :
    max 0 (trunc (F.r64 (z1 / boxPixels F W))) ≤ boxOf F W x ∧
      boxOf F W x < min gridN ⌈F.r64 (z2 / boxPixels F W)⌉ := by
  obtain ⟨c1, c2, c0⟩ := box_bounds K W1
  obtain ⟨b0, b1⟩ := box_range K W1 x0 x1
  obtain ⟨a1, a2⟩ := box_a K W1 x0
  have hx0 : (0 : ℚ) ≤ x := by exact_mod_cast x0
  have hx1 : (x : ℚ) ≤ W := by exact_mod_cast x1
  have hW : (1 : ℚ) ≤ W := by exact_mod_cast W1
  have hW2 : (W : ℚ) ≤ 8191 := by exact_mod_cast W2
  have W0 : (0 : ℚ) < W := by linarith
  have tx : 10 * (x : ℚ) / W * W = 10 * x := by field_simp
  have t10 : 10 * (x : ℚ) / W ≤ 10 := by rw [div_le_iff₀ W0]; linarith
  have t0 : 0 ≤ 10 * (x : ℚ) / W := by positivity
  set t := 10 * (x : ℚ) / W with ht
  constructor
  · by_cases hxW : x = W
    · exact (box_listed K W1 W2 x0 x1 (h1' hxW) (z2 := x + 1) (by linarith)).1
    · refine max_le b0 ?_
      have hxW' : (x : ℚ) + 1 ≤ W := by exact_mod_cast (by omega : x + 1 ≤ W)
      have alt : F.r64 (x / boxPixels F W) < 10 := by
        refine lt_of_le_of_lt a2 ?_
        have : t ≤ 10 - 10 / 8191 := by
          rw [ht, div_le_iff₀ W0]
          nlinarith
        norm_num at *
        linarith
      have nine : boxOf F W x = ⌊F.r64 (x / boxPixels F W)⌋ := by
        unfold boxOf
        simp only
        rw [if_neg]
        intro h
        have := Int.floor_le (F.r64 (x / boxPixels F W))
        rw [h] at this
        unfold gridN at this
        push_cast at this
        linarith
      by_cases hz : 0 ≤ z1
      · have hm : F.r64 (z1 / boxPixels F W) ≤ F.r64 (x / boxPixels F W) := K.r64.mono _ _ (by gcongr)
        have hn := K.r64.nonneg (x := z1 / boxPixels F W) (by positivity)
        unfold trunc
        rw [if_pos hn, nine]
        exact Int.floor_le_floor hm
      · have hn : F.r64 (z1 / boxPixels F W) ≤ 0 := K.r64.nonpos (div_nonpos_of_nonpos_of_nonneg (by linarith) c0.le)
        have : trunc (F.r64 (z1 / boxPixels F W)) ≤ 0 := by
          unfold trunc
          split
          · rename_i h
            have : F.r64 (z1 / boxPixels F W) = 0 := le_antisymm hn h
            rw [this]; simp
          · exact Int.ceil_le.mpr (by simpa using hn)
        omega
  · rcases h2' with h2' | hd
    · exact (box_listed K W1 W2 x0 x1 (z1 := x - 1) (by linarith) h2').2
    refine lt_min b1 (floor_lt_ceil ?_)
    have hab : F.r64 (x / boxPixels F W) ≤ F.r64 (z2 / boxPixels F W) := K.r64.mono _ _ (by gcongr)
    refine lt_of_lt_of_le ?_ hab
    rcases hd with rfl | hd
    · have : (boxOf F W W : ℚ) ≤ 9 := by exact_mod_cast (by unfold gridN at b1; omega)
      refine lt_of_le_of_lt this (lt_of_lt_of_le ?_ a1)
      have : t = 10 := by rw [ht]; push_cast; field_simp
      rw [this]
      norm_num
    · set a := F.r64 (x / boxPixels F W) with ha
      have key : (⌊a⌋ : ℚ) < a := by
        refine lt_of_le_of_ne (Int.floor_le a) fun he => ?_
        set m := ⌊a⌋
        have d1 : m * W - 10 * x ≠ 0 := fun h => hd ⟨m, by linarith⟩
        have e : (((m * W - 10 * x : ℤ)) : ℚ) = (a - t) * W := by push_cast; rw [he]; linarith
        have small : |a - t| ≤ 10 / 2 ^ 51 := by
          rw [abs_le]
          constructor
          · have : t * (1 / 2 ^ 51) ≤ 10 * (1 / 2 ^ 51) := by gcongr
            linarith
          · have : t * (1 / 2 ^ 51) ≤ 10 * (1 / 2 ^ 51) := by gcongr
            linarith
        have lt : |(((m * W - 10 * x : ℤ)) : ℚ)| < 1 := by
          rw [e, abs_mul, abs_of_pos W0]
          calc |a - t| * W ≤ 10 / 2 ^ 51 * 8191 := by gcongr
            _ < 1 := by norm_num
        have lt' : |m * W - 10 * x| < 1 := by exact_mod_cast lt
        exact d1 (Int.abs_lt_one_iff.mp lt')
      refine lt_of_le_of_lt ?_ key
      unfold boxOf
      simp only
      split
      · rename_i h
        rw [h]
        push_cast
        linarith
      · exact le_refl _

end axis

end Verif.Incr

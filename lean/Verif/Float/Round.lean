import Mathlib.Data.Int.Log
import Mathlib.Data.Rat.Floor
import Mathlib.Algebra.Order.Field.Basic
import Mathlib.Algebra.Order.Group.Abs
import Mathlib.Algebra.Order.Ring.Abs
import Mathlib.Tactic.Linarith
import Mathlib.Tactic.Positivity
import Mathlib.Tactic.Ring
import Mathlib.Tactic.FieldSimp
import Mathlib.Tactic.NormNum

/-!
# Rounding to floating-point numbers

Floating-point values are rationals.  `rne p` rounds to the nearest number with a `p` bit
significand, ties to the even significand (IEEE 754 default rounding of each Go operation:
`p = 53` for float64, `p = 24` for float32).  The exponent is unbounded: overflow, subnormal
numbers, infinities and NaN are outside the model.
-/

namespace Verif.Float

/-- Nearest integer, ties to even. -/
def rint (q : ℚ) : ℤ :=
  let f := ⌊q⌋
  if q - f < 1 / 2 then f
  else if 1 / 2 < q - f then f + 1
  else if f % 2 = 0 then f else f + 1

/-- Distance of neighbouring `p` bit numbers around `q`. -/
def ulp (p : Nat) (q : ℚ) : ℚ := (2 : ℚ) ^ (Int.log 2 |q| - (p - 1 : ℤ))

/-- Round to nearest even with a `p` bit significand. -/
def rne (p : Nat) (q : ℚ) : ℚ := rint (q / ulp p q) * ulp p q

/-- `x` is a number with a `p` bit significand. -/
def Rep (p : Nat) (x : ℚ) : Prop := ∃ m e : ℤ, |m| ≤ 2 ^ p ∧ x = m * (2 : ℚ) ^ e

/-- What the theorems use of a rounding. -/
structure Rnd (p : Nat) (fl : ℚ → ℚ) : Prop where
  mono : ∀ x y, x ≤ y → fl x ≤ fl y
  fix : ∀ x, Rep p x → fl x = x
  err : ∀ x, |fl x - x| ≤ |x| / 2 ^ p

theorem rint_err (q : ℚ) : |(rint q : ℚ) - q| ≤ 1 / 2 := by
  have h1 := Int.floor_le q
  have h2 := Int.lt_floor_add_one q
  rw [abs_le]
  unfold rint
  simp only
  split_ifs <;> push_cast <;> constructor <;> linarith

theorem rint_int (n : ℤ) : rint n = n := by
  unfold rint; simp

theorem rint_mono {a b : ℚ} (h : a ≤ b) : rint a ≤ rint b := by
  have hf := Int.floor_le_floor h
  have ha1 := Int.floor_le a
  have ha2 := Int.lt_floor_add_one a
  have hb1 := Int.floor_le b
  have hb2 := Int.lt_floor_add_one b
  rcases hf.lt_or_eq with hlt | heq
  · have ra : rint a ≤ ⌊a⌋ + 1 := by unfold rint; simp only; split_ifs <;> omega
    have rb : ⌊b⌋ ≤ rint b := by unfold rint; simp only; split_ifs <;> omega
    omega
  · unfold rint
    simp only
    rw [← heq]
    rw [← heq] at hb1 hb2
    split_ifs <;> first | omega | (exfalso; linarith)

theorem rint_neg (q : ℚ) : rint (-q) = - rint q := by
  have h1 := Int.floor_le q
  have h2 := Int.lt_floor_add_one q
  by_cases hi : q = ⌊q⌋
  · have : rint (-q) = rint (((-⌊q⌋ : ℤ)) : ℚ) := by congr 1; push_cast; linarith
    rw [this, rint_int]
    conv_rhs => rw [hi]
    rw [rint_int]
  · have hlt : (⌊q⌋ : ℚ) < q := lt_of_le_of_ne h1 (Ne.symm hi)
    have hfl : ⌊-q⌋ = -⌊q⌋ - 1 := by
      rw [Int.floor_eq_iff]; push_cast; constructor <;> linarith
    unfold rint
    simp only
    rw [hfl]
    push_cast
    split_ifs <;> first | omega | (exfalso; linarith)

theorem ulp_pos (p : Nat) (q : ℚ) : 0 < ulp p q := zpow_pos (by norm_num) _

theorem ulp_neg (p : Nat) (q : ℚ) : ulp p (-q) = ulp p q := by unfold ulp; rw [abs_neg]

theorem rne_neg (p : Nat) (q : ℚ) : rne p (-q) = - rne p q := by
  unfold rne; rw [ulp_neg, neg_div, rint_neg]; push_cast; ring

theorem rne_zero (p : Nat) : rne p 0 = 0 := by
  unfold rne
  rw [zero_div]
  have := rint_int 0
  simp only [Int.cast_zero] at this
  rw [this]; simp

theorem log_bounds {q : ℚ} (h : 0 < q) : (2 : ℚ) ^ Int.log 2 q ≤ q ∧ q < (2 : ℚ) ^ (Int.log 2 q + 1) := by
  constructor
  · have := Int.zpow_log_le_self (b := 2) (r := q) (by norm_num) h
    simpa using this
  · have := Int.lt_zpow_succ_log_self (b := 2) (by norm_num) q
    simpa using this

/-- Relative size of the spacing. -/
theorem ulp_le (p : Nat) {q : ℚ} (h : q ≠ 0) : ulp p q ≤ |q| * 2 / 2 ^ p := by
  have hb := (log_bounds (abs_pos.mpr h)).1
  unfold ulp
  have : (2 : ℚ) ^ (Int.log 2 |q| - (p - 1 : ℤ)) = (2 : ℚ) ^ Int.log 2 |q| * 2 / 2 ^ p := by
    rw [show Int.log 2 |q| - (p - 1 : ℤ) = Int.log 2 |q| + 1 - (p : ℤ) by ring,
      zpow_sub₀ (by norm_num), zpow_add₀ (by norm_num), zpow_natCast, zpow_one]
  rw [this]
  gcongr

theorem rne_abs (p : Nat) (q : ℚ) : |rne p q - q| ≤ ulp p q / 2 := by
  have hu := ulp_pos p q
  have : rne p q - q = (rint (q / ulp p q) - q / ulp p q) * ulp p q := by
    unfold rne; rw [sub_mul, div_mul_cancel₀ _ hu.ne']
  rw [this, abs_mul, abs_of_pos hu]
  have := rint_err (q / ulp p q)
  nlinarith

theorem rne_err (p : Nat) (q : ℚ) : |rne p q - q| ≤ |q| / 2 ^ p := by
  by_cases h : q = 0
  · subst h; simp [rne_zero]
  · refine (rne_abs p q).trans ?_
    have := ulp_le p h
    calc ulp p q / 2 ≤ (|q| * 2 / 2 ^ p) / 2 := by linarith
      _ = |q| / 2 ^ p := by ring

/-- In a binade, rounding stays between its ends. -/
theorem rne_range {p : Nat} (hp : 1 ≤ p) {q : ℚ} (h : 0 < q) :
    (2 : ℚ) ^ Int.log 2 q ≤ rne p q ∧ rne p q ≤ (2 : ℚ) ^ (Int.log 2 q + 1) := by
  obtain ⟨h1, h2⟩ := log_bounds h
  have hu := ulp_pos p q
  have hul : ulp p q = (2 : ℚ) ^ (Int.log 2 q - (p - 1 : ℤ)) := by unfold ulp; rw [abs_of_pos h]
  have e1 : (2 : ℚ) ^ Int.log 2 q = ((2 ^ (p - 1) : ℤ) : ℚ) * ulp p q := by
    rw [hul]; push_cast
    rw [← zpow_natCast, ← zpow_add₀ (by norm_num)]
    congr 1
    push_cast [hp]; ring
  have e2 : (2 : ℚ) ^ (Int.log 2 q + 1) = ((2 ^ p : ℤ) : ℚ) * ulp p q := by
    rw [hul]; push_cast
    rw [← zpow_natCast, ← zpow_add₀ (by norm_num)]
    congr 1; ring
  rw [e1] at h1
  rw [e2] at h2
  rw [e1, e2]
  unfold rne
  constructor
  · have : (2 ^ (p - 1) : ℤ) ≤ rint (q / ulp p q) := by
      rw [← rint_int (2 ^ (p - 1))]
      exact rint_mono ((le_div_iff₀ hu).mpr h1)
    have : ((2 ^ (p - 1) : ℤ) : ℚ) ≤ rint (q / ulp p q) := by exact_mod_cast this
    nlinarith
  · have : rint (q / ulp p q) ≤ (2 ^ p : ℤ) := by
      rw [← rint_int (2 ^ p)]
      exact rint_mono ((div_le_iff₀ hu).mpr h2.le)
    have : (rint (q / ulp p q) : ℚ) ≤ ((2 ^ p : ℤ) : ℚ) := by exact_mod_cast this
    nlinarith

theorem rne_mono_pos {p : Nat} (hp : 1 ≤ p) {a b : ℚ} (h0 : 0 < a) (h : a ≤ b) : rne p a ≤ rne p b := by
  have hb : 0 < b := h0.trans_le h
  have hl : Int.log 2 a ≤ Int.log 2 b := Int.log_mono_right h0 h
  rcases hl.lt_or_eq with hlt | heq
  · refine (rne_range hp h0).2.trans (le_trans ?_ (rne_range hp hb).1)
    exact zpow_le_zpow_right₀ (by norm_num) (by omega)
  · have hu : ulp p a = ulp p b := by
      unfold ulp; rw [abs_of_pos h0, abs_of_pos hb, heq]
    unfold rne
    rw [hu]
    have hub := ulp_pos p b
    have : rint (a / ulp p b) ≤ rint (b / ulp p b) := rint_mono (by gcongr)
    have : (rint (a / ulp p b) : ℚ) ≤ rint (b / ulp p b) := by exact_mod_cast this
    nlinarith

theorem rne_nonneg {p : Nat} (hp : 1 ≤ p) {a : ℚ} (h : 0 ≤ a) : 0 ≤ rne p a := by
  rcases h.eq_or_lt with rfl | h
  · rw [rne_zero]
  · exact le_trans (zpow_pos (by norm_num) _).le (rne_range hp h).1

theorem rne_mono {p : Nat} (hp : 1 ≤ p) {a b : ℚ} (h : a ≤ b) : rne p a ≤ rne p b := by
  rcases le_or_gt a 0 with ha | ha
  · have na : rne p a ≤ 0 := by
      have := rne_nonneg hp (neg_nonneg.mpr ha)
      rw [rne_neg] at this; linarith
    rcases le_or_gt 0 b with hb | hb
    · exact na.trans (rne_nonneg hp hb)
    · have := rne_mono_pos hp (neg_pos.mpr hb) (neg_le_neg h)
      rw [rne_neg, rne_neg] at this
      linarith
  · exact rne_mono_pos hp ha h

theorem rne_fix {p : Nat} (hp : 1 ≤ p) {x : ℚ} (h : Rep p x) : rne p x = x := by
  obtain ⟨m, e, hm, rfl⟩ := h
  by_cases h0 : m = 0
  · subst h0; simp [rne_zero]
  have hx : (m : ℚ) * (2 : ℚ) ^ e ≠ 0 := mul_ne_zero (by exact_mod_cast h0) (zpow_pos (by norm_num) _).ne'
  set x := (m : ℚ) * (2 : ℚ) ^ e with hxdef
  have hu := ulp_pos p x
  obtain ⟨h1, h2⟩ := log_bounds (abs_pos.mpr hx)
  have hax : |x| = (|m| : ℤ) * (2 : ℚ) ^ e := by
    rw [hxdef, abs_mul, abs_of_pos (zpow_pos (by norm_num : (0 : ℚ) < 2) e)]; push_cast; ring
  have hmq : ((|m| : ℤ) : ℚ) ≤ (2 : ℚ) ^ (p : ℤ) := by
    rw [zpow_natCast]; exact_mod_cast hm
  suffices hint : ∃ n : ℤ, x / ulp p x = n by
    obtain ⟨n, hn⟩ := hint
    unfold rne
    rw [hn, rint_int, ← hn, div_mul_cancel₀ _ hu.ne']
  set L := Int.log 2 |x| with hL
  have hul : ulp p x = (2 : ℚ) ^ (L - (p - 1 : ℤ)) := rfl
  have hLe : L ≤ p + e := by
    have : (2 : ℚ) ^ L ≤ (2 : ℚ) ^ ((p : ℤ) + e) := by
      rw [zpow_add₀ (by norm_num)]
      refine h1.trans ?_
      rw [hax]
      exact mul_le_mul_of_nonneg_right hmq (zpow_pos (by norm_num) _).le
    exact (zpow_le_zpow_iff_right₀ (by norm_num)).mp this
  rcases hLe.lt_or_eq with hlt | heq
  · obtain ⟨k, hk⟩ : ∃ k : Nat, (k : ℤ) = e - (L - (p - 1 : ℤ)) := ⟨(e - (L - (p - 1 : ℤ))).toNat, by omega⟩
    refine ⟨m * 2 ^ k, ?_⟩
    rw [hul, hxdef, mul_div_assoc, ← zpow_sub₀ (by norm_num), ← hk]
    push_cast
    rw [zpow_natCast]
  · have hge : (2 : ℚ) ^ (p : ℤ) ≤ ((|m| : ℤ) : ℚ) := by
      have : (2 : ℚ) ^ L ≤ ((|m| : ℤ) : ℚ) * (2 : ℚ) ^ e := by rw [← hax]; exact h1
      rw [heq, zpow_add₀ (by norm_num)] at this
      exact le_of_mul_le_mul_right this (zpow_pos (by norm_num) _)
    have hme : ((|m| : ℤ) : ℚ) = (2 : ℚ) ^ (p : ℤ) := le_antisymm hmq hge
    have hmi : |m| = 2 ^ p := by
      rw [zpow_natCast] at hme
      exact_mod_cast hme
    -- the significand is a power of two: use one bit less
    have he1 : ulp p x = (2 : ℚ) ^ (e + 1) := by rw [hul, heq]; congr 1; ring
    have key : (2 : ℤ) ^ p = 2 * 2 ^ (p - 1) := by
      conv_lhs => rw [show p = (p - 1) + 1 by omega]
      ring
    rcases abs_eq (show (0 : ℤ) ≤ 2 ^ p by positivity) |>.mp hmi with hm' | hm'
    · refine ⟨2 ^ (p - 1), ?_⟩
      rw [he1, hxdef, hm', key, zpow_add₀ (by norm_num)]
      have := (zpow_pos (by norm_num : (0 : ℚ) < 2) e).ne'
      push_cast
      field_simp
    · refine ⟨-2 ^ (p - 1), ?_⟩
      rw [he1, hxdef, hm', key, zpow_add₀ (by norm_num)]
      have := (zpow_pos (by norm_num : (0 : ℚ) < 2) e).ne'
      push_cast
      field_simp

/-- Rounding to nearest even is a rounding. -/
theorem rne_rnd {p : Nat} (hp : 1 ≤ p) : Rnd p (rne p) :=
  ⟨fun _ _ h => rne_mono hp h, fun _ h => rne_fix hp h, rne_err p⟩

/-- Exact arithmetic is a rounding. -/
theorem id_rnd (p : Nat) : Rnd p id :=
  ⟨fun _ _ h => h, fun _ _ => rfl, fun x => by simp; positivity⟩

/-- The result has a `p` bit significand. -/
theorem rne_rep (p : Nat) (q : ℚ) : Rep p (rne p q) := by
  rcases eq_or_ne q 0 with rfl | h
  · rw [rne_zero]; exact ⟨0, 0, by simp, by simp⟩
  · refine ⟨rint (q / ulp p q), Int.log 2 |q| - (p - 1 : ℤ), ?_, rfl⟩
    have hu := ulp_pos p q
    have h2 := (log_bounds (abs_pos.mpr h)).2
    have e2 : (2 : ℚ) ^ (Int.log 2 |q| + 1) = ((2 ^ p : ℤ) : ℚ) * ulp p q := by
      unfold ulp
      push_cast
      rw [← zpow_natCast, ← zpow_add₀ (by norm_num)]
      congr 1; ring
    rw [e2] at h2
    have h3 := abs_lt.mp h2
    rw [abs_le]
    constructor
    · rw [← rint_int (-2 ^ p)]
      refine rint_mono ((le_div_iff₀ hu).mpr ?_)
      push_cast at h3 ⊢
      linarith [h3.1]
    · rw [← rint_int (2 ^ p)]
      exact rint_mono ((div_le_iff₀ hu).mpr h3.2.le)

namespace Rnd

variable {p : Nat} {fl : ℚ → ℚ}

theorem int (R : Rnd p fl) {n : ℤ} (h : |n| ≤ 2 ^ p) : fl n = n := R.fix _ ⟨n, 0, h, by simp⟩

theorem zero (R : Rnd p fl) : fl 0 = 0 := by
  have := R.int (n := 0) (by simp)
  simpa using this

theorem nonneg (R : Rnd p fl) {x : ℚ} (h : 0 ≤ x) : 0 ≤ fl x := by
  have := R.mono 0 x h; rwa [R.zero] at this

theorem nonpos (R : Rnd p fl) {x : ℚ} (h : x ≤ 0) : fl x ≤ 0 := by
  have := R.mono x 0 h; rwa [R.zero] at this

theorem le_int (R : Rnd p fl) {x : ℚ} {n : ℤ} (hn : |n| ≤ 2 ^ p) (h : x ≤ n) : fl x ≤ n := by
  have := R.mono x n h; rwa [R.int hn] at this

theorem int_le (R : Rnd p fl) {x : ℚ} {n : ℤ} (hn : |n| ≤ 2 ^ p) (h : (n : ℚ) ≤ x) : (n : ℚ) ≤ fl x := by
  have := R.mono n x h; rwa [R.int hn] at this

theorem pos (R : Rnd p fl) (hp : 1 ≤ p) {x : ℚ} (h : 0 < x) : 0 < fl x := by
  have h1 := abs_le.mp (R.err x)
  rw [abs_of_pos h] at h1
  have h2 : (2 : ℚ) ≤ 2 ^ p := by
    calc (2 : ℚ) = 2 ^ 1 := by norm_num
      _ ≤ 2 ^ p := pow_le_pow_right₀ (by norm_num) hp
  have : x / 2 ^ p ≤ x / 2 := by gcongr
  linarith [h1.1]

theorem lo (R : Rnd p fl) {x : ℚ} (h : 0 ≤ x) : x * (1 - 1 / 2 ^ p) ≤ fl x := by
  have h1 := (abs_le.mp (R.err x)).1
  rw [abs_of_nonneg h] at h1
  have : x * (1 - 1 / 2 ^ p) = x - x / 2 ^ p := by ring
  linarith

theorem hi (R : Rnd p fl) {x : ℚ} (h : 0 ≤ x) : fl x ≤ x * (1 + 1 / 2 ^ p) := by
  have h1 := (abs_le.mp (R.err x)).2
  rw [abs_of_nonneg h] at h1
  have : x * (1 + 1 / 2 ^ p) = x + x / 2 ^ p := by ring
  linarith

end Rnd

/-- A square root in float64: nonnegative, relative error at most `2^-52` (IEEE: correctly rounded). -/
structure SqrtOK (sq : ℚ → ℚ) : Prop where
  nonneg : ∀ x, 0 ≤ sq x
  err : ∀ x, 0 ≤ x → x * (1 - 1 / 2 ^ 51) ≤ sq x ^ 2 ∧ sq x ^ 2 ≤ x * (1 + 1 / 2 ^ 51)

end Verif.Float

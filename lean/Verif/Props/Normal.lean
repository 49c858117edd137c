import Verif.Small.TailLaw
import Mathlib.Analysis.SpecialFunctions.Log.Basic
import Mathlib.Analysis.Complex.ExponentialBounds

/-!
# C81: normally distributed numbers
-/

namespace Verif.Props

open Verif.Small Verif.Float MeasureTheory

/-- The documented ranges of the generator. -/
structure PcgOK {σ : Type} (r : Pcg σ) : Prop where
  next : ∀ s, (r.next s).1 < 2 ^ 32
  float32 : ∀ s, 0 ≤ (r.float32 s).1 ∧ (r.float32 s).1 < 1

/-- `math.Exp` and `math.Log` are accurate to four units in the last place where they are used. -/
structure MathOK (M : MathFns) : Prop where
  exp : ∀ t : ℚ, -8 ≤ t → t ≤ 0 → |(M.exp t : ℝ) - Real.exp t| ≤ Real.exp t / 2 ^ 50
  log : ∀ u : ℚ, 0 < u → u < 1 → |(M.log u : ℝ) - Real.log u| ≤ |Real.log u| / 2 ^ 50

/-- There are such functions. -/
theorem mathFns_exist : ∃ M : MathFns, MathOK M := by
  have he (t : ℚ) : ∃ q : ℚ, |(q : ℝ) - Real.exp t| ≤ Real.exp t / 2 ^ 50 := by
    have h0 := Real.exp_pos (t : ℝ)
    have h3 : 0 < Real.exp (t : ℝ) / 2 ^ 50 := by positivity
    obtain ⟨q, h1, h2⟩ := exists_rat_btwn (show Real.exp (t : ℝ) < Real.exp t + Real.exp t / 2 ^ 50 from by linarith)
    exact ⟨q, by rw [abs_le]; constructor <;> linarith⟩
  have hl (u : ℚ) : ∃ q : ℚ, 0 < u → u < 1 → |(q : ℝ) - Real.log u| ≤ |Real.log u| / 2 ^ 50 := by
    by_cases h : 0 < u ∧ u < 1
    · have h0 : Real.log u < 0 := Real.log_neg (by exact_mod_cast h.1) (by exact_mod_cast h.2)
      have h3 : 0 < |Real.log u| / 2 ^ 50 := div_pos (abs_pos.mpr h0.ne) (by positivity)
      obtain ⟨q, h1, h2⟩ := exists_rat_btwn (show Real.log u < Real.log u + |Real.log u| / 2 ^ 50 from by linarith)
      exact ⟨q, fun _ _ => by rw [abs_le]; constructor <;> linarith⟩
    · exact ⟨0, fun a b => absurd ⟨a, b⟩ h⟩
  choose e he using he
  choose l hl using hl
  exact ⟨⟨l, e⟩, fun t _ _ => he t, hl⟩

/-- A generator for the examples: the state is the next number, `Float32` returns one half. -/
def halfPcg : Pcg Nat := ⟨fun s => (s % 2 ^ 32, s + 1), fun s => (1 / 2, s)⟩

theorem halfPcg_ok : PcgOK halfPcg := ⟨fun _ => Nat.mod_lt _ (by norm_num), fun _ => ⟨by change (0 : ℚ) ≤ 1 / 2; norm_num, by change (1 / 2 : ℚ) < 1; norm_num⟩⟩

/-- A generator for the examples: `Next` selects the end of the base strip, `Float32` returns zero. -/
def zeroPcg : Pcg Unit := ⟨fun s => (0x7fffff80, s), fun s => (0, s)⟩

theorem zeroPcg_ok : PcgOK zeroPcg := ⟨fun _ => by change 0x7fffff80 < 2 ^ 32; norm_num, fun _ => ⟨le_rfl, by change (0 : ℚ) < 1; norm_num⟩⟩

theorem int32_range {n : Nat} (h : n < 2 ^ 32) : -2 ^ 31 ≤ int32 n ∧ int32 n < 2 ^ 31 := by
  unfold int32
  split <;> omega

/-- C81: the signed number taken from a draw is the one congruent to it, so that equally likely draws give equally likely signed numbers: each of the
2^32 numbers comes from exactly one draw. -/
theorem c81_signed : (∀ n : Nat, (2 ^ 32 : Int) ∣ int32 n - n) ∧ ∀ j : Int, -2 ^ 31 ≤ j → j < 2 ^ 31 → ∃! n : Nat, n < 2 ^ 32 ∧ int32 n = j := by
  constructor
  · intro n
    unfold int32
    split
    · simp
    · exact ⟨-1, by ring⟩
  · intro j h1 h2
    refine ⟨(j % 2 ^ 32).toNat, ⟨by omega, ?_⟩, ?_⟩
    · unfold int32
      split <;> omega
    · rintro n ⟨hn, h⟩
      unfold int32 at h
      split at h <;> omega

theorem absInt32_eq {j : Int} (h1 : -2 ^ 31 ≤ j) (h2 : j < 2 ^ 31) : (absInt32 j : Int) = |j| := by
  unfold absInt32
  split
  · rename_i h
    rw [abs_of_neg h]
    omega
  · rename_i h
    rw [abs_of_nonneg (by omega)]
    omega

/-- The entries of the tables. -/
theorem tables {i : Nat} (hi : i < 128) : kn i = some (knTable.getD i 0) ∧ wn i = some (zx i / 2 ^ 31) ∧ fn i = some (zf i) := by
  obtain ⟨l1, l2, l3⟩ := lengths
  have g1 : knTable[i]? = some (knTable.getD i 0) := by
    rw [List.getD_eq_getElem?_getD, List.getElem?_eq_getElem (by omega), Option.getD_some]
  have g2 : wnTable[i]? = some (wnTable.getD i 0) := by
    rw [List.getD_eq_getElem?_getD, List.getElem?_eq_getElem (by omega), Option.getD_some]
  have g3 : fnTable[i]? = some (fnTable.getD i 0) := by
    rw [List.getD_eq_getElem?_getD, List.getElem?_eq_getElem (by omega), Option.getD_some]
  refine ⟨g1, ?_, ?_⟩
  · unfold wn zx
    rw [g2, Option.map_some]
    congr 1
    ring
  · unfold fn zf
    rw [g3, Option.map_some]

/-- The strip that the first draw selects. -/
def stripOf (n : Nat) : Nat := n % 128

/-- The abscissa that the first draw selects: uniform between the ends of the strip. -/
def abscissa (n : Nat) : ℚ := int32 n / 2 ^ 31 * zx (stripOf n)

theorem stripOf_eq (n : Nat) : (int32 n % 128).toNat = stripOf n := by
  unfold int32 stripOf
  split <;> omega

/-- One pass of the outer loop, with the tables looked up. -/
theorem normPass_eq {σ : Type} (M : MathFns) (r : Pcg σ) (s : σ) :
    normPass M r s = some (
      let n := r.next s
      let x := rne 53 (abscissa n.1)
      let i := stripOf n.1
      if absInt32 (int32 n.1) < knTable.getD i 0 then .done x n.2
      else if i = 0 then .tail (decide (0 < int32 n.1)) n.2
      else
        let u := r.float32 n.2
        if rne 24 (zf i + rne 24 (u.1 * rne 24 (zf (i - 1) - zf i))) < rne 24 (M.exp (rne 53 (rne 53 (-1 / 2 * x) * x))) then .done x u.2
        else .start u.2) := by
  have hi : stripOf (r.next s).1 < 128 := Nat.mod_lt _ (by norm_num)
  obtain ⟨a1, a2, a3⟩ := tables hi
  obtain ⟨-, -, b3⟩ := tables (i := stripOf (r.next s).1 - 1) (by omega)
  have hx : (int32 (r.next s).1 : ℚ) * (zx (stripOf (r.next s).1) / 2 ^ 31) = abscissa (r.next s).1 := by unfold abscissa; ring
  unfold normPass
  simp only [stripOf_eq, a1, a2, a3, b3, hx, Option.bind_eq_bind, Option.bind_some, Option.pure_def]
  split
  · rfl
  · split
    · rfl
    · split <;> rfl

/-- C81: no step panics: the three tables have the indices that are used. -/
theorem c81_safe {σ : Type} (M : MathFns) (r : Pcg σ) (a : NormSt σ) : ∃ b, normStep M r a = some b := by
  cases a with
  | start s => exact ⟨_, normPass_eq M r s⟩
  | tail pos s => exact ⟨_, rfl⟩
  | done x s => exact ⟨_, rfl⟩
  | doneInf pos s => exact ⟨_, rfl⟩

theorem abscissa_le {n : Nat} (h : n < 2 ^ 32) : |abscissa n| ≤ zx (stripOf n) := by
  have hi : stripOf n < 128 := Nat.mod_lt _ (by norm_num)
  have hz := (zx_pos hi).le
  have hz' : (0 : ℚ) ≤ zx (stripOf n) := by exact_mod_cast hz
  obtain ⟨h1, h2⟩ := int32_range h
  have h1' : (-2 ^ 31 : ℚ) ≤ int32 n := by exact_mod_cast h1
  have h2' : (int32 n : ℚ) < 2 ^ 31 := by exact_mod_cast h2
  unfold abscissa
  rw [abs_mul, abs_of_nonneg hz']
  refine mul_le_of_le_one_left hz' ?_
  rw [abs_le]
  constructor
  · rw [le_div_iff₀ (by norm_num)]; linarith
  · rw [div_le_iff₀ (by norm_num)]; linarith

theorem zx_le {i : Nat} (hi : i < 128) : zx i ≤ 4 := by
  rcases Nat.eq_zero_or_pos i with h | h
  · rw [h]; exact base_strip.2.2.2.2.2.2.2.2.2.2
  · exact (strip h hi).width.2.trans (by norm_num)

/-- The first test compares the abscissa with the threshold. -/
theorem fast_iff {n : Nat} (h : n < 2 ^ 32) : absInt32 (int32 n) < knTable.getD (stripOf n) 0 ↔ |abscissa n| < zk (stripOf n) := by
  have hi : stripOf n < 128 := Nat.mod_lt _ (by norm_num)
  obtain ⟨h1, h2⟩ := int32_range h
  have ha := absInt32_eq h1 h2
  have hw : (0 : ℚ) < rne 24 (wnTable.getD (stripOf n) 0) := by
    have := zx_pos hi
    have : (0 : ℚ) < zx (stripOf n) := by exact_mod_cast this
    unfold zx at this
    linarith
  have e : |abscissa n| = absInt32 (int32 n) * rne 24 (wnTable.getD (stripOf n) 0) := by
    have : abscissa n = int32 n * rne 24 (wnTable.getD (stripOf n) 0) := by unfold abscissa zx; ring
    rw [this, abs_mul, abs_of_pos hw]
    congr 1
    exact_mod_cast ha.symm
  rw [e]
  unfold zk
  rw [mul_lt_mul_iff_left₀ hw]
  norm_cast

/-- The number drawn is not so near the curve that rounding decides. -/
def OffCurve (i : Nat) (x u : ℝ) : Prop := gauss x / 2 ^ 20 < |zf i + u * (zf (i - 1) - zf i) - gauss x|

theorem rerr {p : Nat} (x : ℚ) : |(rne p x : ℝ) - x| ≤ |(x : ℝ)| / 2 ^ p := by
  have := toR (rne_err p x)
  push_cast at this
  exact this

theorem rne_zero {p : Nat} : rne p 0 = 0 := by
  have := rne_err p 0
  rw [abs_zero, zero_div, sub_zero] at this
  exact abs_nonpos_iff.mp this

theorem rne_nonneg' {p : Nat} (hp : 1 ≤ p) {x : ℚ} (h : 0 ≤ x) : 0 ≤ rne p x := by
  have := (rne_rnd hp).mono 0 x h
  rwa [rne_zero] at this

/-- Two approximated numbers that are not too close compare like the exact ones. -/
theorem compare_close {A B y g e : ℝ} (y0 : 0 ≤ y) (g0 : 0 ≤ g) (e0 : 0 ≤ e) (e1 : e ≤ 1 / 8) (a : |A - y| ≤ y * e) (b : |B - g| ≤ g * e)
    (h : g * (4 * e) < |y - g|) : (A < B ↔ y < g) ∧ (A ≤ B ↔ y ≤ g) := by
  obtain ⟨a1, a2⟩ := abs_le.mp a
  obtain ⟨b1, b2⟩ := abs_le.mp b
  have ge : 0 ≤ g * e := mul_nonneg g0 e0
  rcases lt_abs.mp h with h | h
  · have h1 : 0 ≤ (y - g - g * (4 * e)) * (1 - e) := mul_nonneg (by linarith) (by linarith)
    have h2 : 0 ≤ g * e * (1 / 8 - e) := mul_nonneg ge (by linarith)
    rcases eq_or_lt_of_le e0 with e00 | e00
    · subst e00
      have : A = y := by linarith
      have : B = g := by linarith
      constructor <;> constructor <;> intro <;> linarith
    · rcases eq_or_lt_of_le g0 with g00 | g00
      · subst g00
        have : B = 0 := by linarith
        have : 0 < A := by
          have : y * e ≤ y * (1 / 8) := mul_le_mul_of_nonneg_left e1 y0
          linarith
        constructor <;> constructor <;> intro <;> linarith
      · have : 0 < g * e := mul_pos g00 e00
        have : B < A := by nlinarith
        constructor <;> constructor <;> intro <;> linarith
  · have h1 : 0 ≤ (g - y - g * (4 * e)) * (1 + e) := mul_nonneg (by linarith) (by linarith)
    have h3 : y < g := by linarith
    have g00 : 0 < g := by linarith
    have h2 : 0 ≤ g * e * (1 / 8 - e) := mul_nonneg ge (by linarith)
    have : A < B := by
      rcases eq_or_lt_of_le e0 with e00 | e00
      · subst e00; linarith
      · have : 0 < g * e := mul_pos g00 e00
        nlinarith
    constructor <;> constructor <;> intro <;> linarith

/-- The computed height of the point. -/
theorem height_close {i : Nat} (h1 : 1 ≤ i) (h2 : i < 128) {u : ℚ} (u0 : 0 ≤ u) :
    |(rne 24 (zf i + rne 24 (u * rne 24 (zf (i - 1) - zf i))) : ℝ) - (zf i + u * (zf (i - 1) - zf i))| ≤ (zf i + u * (zf (i - 1) - zf i)) / 2 ^ 22 := by
  have S := strip h1 h2
  have f0 : (0 : ℚ) < zf i := S.gap.1
  have d0 : (0 : ℚ) < zf (i - 1) - zf i := by have := S.gap.2; linarith
  obtain ⟨d, hd⟩ : ∃ d, d = zf (i - 1) - zf i := ⟨_, rfl⟩
  rw [show ((zf (i - 1) : ℝ) - zf i) = (d : ℝ) from by rw [hd]; push_cast; rfl, ← hd]
  rw [← hd] at d0
  have key : |rne 24 (zf i + rne 24 (u * rne 24 d)) - (zf i + u * d)| ≤ (zf i + u * d) / 2 ^ 22 := by
    have e1 := abs_le.mp (rne_err 24 d)
    have e2 := abs_le.mp (rne_err 24 (u * rne 24 d))
    have e3 := abs_le.mp (rne_err 24 (zf i + rne 24 (u * rne 24 d)))
    rw [abs_of_pos d0] at e1
    have r1 : 0 ≤ rne 24 d := by nlinarith [e1.1]
    rw [abs_of_nonneg (mul_nonneg u0 r1)] at e2
    have r2 : 0 ≤ rne 24 (u * rne 24 d) := by nlinarith [e2.1, mul_nonneg u0 r1]
    rw [abs_of_nonneg (by linarith)] at e3
    have ud : 0 ≤ u * d := mul_nonneg u0 d0.le
    have m1 : u * rne 24 d - u * d ≤ u * d / 2 ^ 24 := by
      have := mul_le_mul_of_nonneg_left e1.2 u0
      linarith
    have m2 : -(u * d / 2 ^ 24) ≤ u * rne 24 d - u * d := by
      have := mul_le_mul_of_nonneg_left e1.1 u0
      linarith
    rw [abs_le]
    norm_num at e2 e3 m1 m2 ⊢
    constructor <;> linarith
  have := toR key
  push_cast at this
  exact this

/-- The computed value of the curve. -/
theorem curve_close {M : MathFns} (hM : MathOK M) {x : ℚ} (hx : |x| ≤ 7 / 2) :
    |(rne 24 (M.exp (rne 53 (rne 53 (-1 / 2 * rne 53 x) * rne 53 x))) : ℝ) - gauss x| ≤ gauss x / 2 ^ 23 := by
  obtain ⟨t, ht⟩ : ∃ t, t = rne 53 (rne 53 (-1 / 2 * rne 53 x) * rne 53 x) := ⟨_, rfl⟩
  rw [← ht]
  have hq : |t - -(x ^ 2 / 2)| ≤ 1 / 2 ^ 46 := by
    obtain ⟨y, hy⟩ : ∃ y, y = rne 53 x := ⟨_, rfl⟩
    rw [← hy] at ht
    have e1 := rne_err 53 x
    have e2 := rne_err 53 (-1 / 2 * y)
    have e3 := rne_err 53 (rne 53 (-1 / 2 * y) * y)
    rw [← ht] at e3
    rw [← hy] at e1
    obtain ⟨z, hz⟩ : ∃ z, z = rne 53 (-1 / 2 * y) := ⟨_, rfl⟩
    rw [← hz] at e2 e3
    have y1 : |y - x| ≤ 1 / 2 ^ 51 := e1.trans (by norm_num at hx ⊢; linarith)
    have y4 : |y| ≤ 4 := by
      calc |y| = |(y - x) + x| := by ring_nf
        _ ≤ |y - x| + |x| := abs_add_le _ _
        _ ≤ 4 := by norm_num at hx y1 ⊢; linarith
    have z1 : |z - -1 / 2 * y| ≤ 1 / 2 ^ 52 := by
      refine e2.trans ?_
      rw [abs_mul]
      norm_num at y4 ⊢
      linarith
    have z4 : |z| ≤ 4 := by
      calc |z| = |(z - -1 / 2 * y) + -1 / 2 * y| := by ring_nf
        _ ≤ |z - -1 / 2 * y| + |-1 / 2 * y| := abs_add_le _ _
        _ ≤ 4 := by
          rw [abs_mul (-1 / 2) y]
          norm_num at y4 z1 ⊢
          linarith
    have t1 : |t - z * y| ≤ 1 / 2 ^ 49 := by
      refine e3.trans ?_
      rw [abs_mul]
      have : |z| * |y| ≤ 4 * 4 := mul_le_mul z4 y4 (abs_nonneg _) (by norm_num)
      norm_num at this ⊢
      linarith
    have w1 : |z * y - -1 / 2 * y * y| ≤ 1 / 2 ^ 50 := by
      rw [← sub_mul, abs_mul]
      calc |z - -1 / 2 * y| * |y| ≤ 1 / 2 ^ 52 * 4 := mul_le_mul z1 y4 (abs_nonneg _) (by norm_num)
        _ = 1 / 2 ^ 50 := by norm_num
    have w2 : |-1 / 2 * y * y - -(x ^ 2 / 2)| ≤ 1 / 2 ^ 49 := by
      have : -1 / 2 * y * y - -(x ^ 2 / 2) = -(1 / 2) * ((y - x) * (y + x)) := by ring
      rw [this, abs_mul, abs_mul]
      have h8 : |y + x| ≤ 8 := (abs_add_le _ _).trans (by linarith)
      have : |y - x| * |y + x| ≤ 1 / 2 ^ 51 * 8 := mul_le_mul y1 h8 (abs_nonneg _) (by norm_num)
      norm_num at this ⊢
      linarith
    calc |t - -(x ^ 2 / 2)| = |(t - z * y) + ((z * y - -1 / 2 * y * y) + (-1 / 2 * y * y - -(x ^ 2 / 2)))| := by ring_nf
      _ ≤ |t - z * y| + (|z * y - -1 / 2 * y * y| + |-1 / 2 * y * y - -(x ^ 2 / 2)|) := (abs_add_le _ _).trans (add_le_add_right (abs_add_le _ _) _)
      _ ≤ 1 / 2 ^ 46 := by norm_num at t1 w1 w2 ⊢; linarith
  have hx2 : x ^ 2 ≤ (7 / 2) ^ 2 := sq_le_sq.mpr (by rwa [abs_of_pos (by norm_num : (0 : ℚ) < 7 / 2)])
  have tr := abs_le.mp hq
  have t8 : -8 ≤ t := by norm_num at hx2 tr ⊢; linarith [tr.1]
  have t0 : t ≤ 0 := by
    rw [ht]
    have : rne 53 (-1 / 2 * rne 53 x) * rne 53 x ≤ 0 := by
      rcases le_total 0 (rne 53 x) with h | h
      · refine mul_nonpos_of_nonpos_of_nonneg ?_ h
        have := (rne_rnd (p := 53) (by norm_num)).mono (-1 / 2 * rne 53 x) 0 (by linarith)
        rwa [rne_zero] at this
      · refine mul_nonpos_of_nonneg_of_nonpos ?_ h
        have := (rne_rnd (p := 53) (by norm_num)).mono 0 (-1 / 2 * rne 53 x) (by linarith)
        rwa [rne_zero] at this
    have := (rne_rnd (p := 53) (by norm_num)).mono _ 0 this
    rwa [rne_zero] at this
  have he := abs_le.mp (hM.exp t t8 t0)
  have g0 := gauss_pos x
  have hg : Real.exp (t : ℝ) = gauss x * Real.exp ((t : ℝ) + (x : ℝ) ^ 2 / 2) := by
    unfold gauss
    rw [← Real.exp_add]
    congr 1
    ring
  obtain ⟨e, hee⟩ : ∃ e : ℝ, e = (t : ℝ) + (x : ℝ) ^ 2 / 2 := ⟨_, rfl⟩
  have e46 : |e| ≤ 1 / 2 ^ 46 := by
    have := toR hq
    push_cast at this
    rw [hee, ← sub_neg_eq_add]
    exact this
  rw [← hee] at hg
  have ex := abs_le.mp (Real.abs_exp_sub_one_le (x := e) (e46.trans (by norm_num)))
  have hE : |Real.exp (t : ℝ) - gauss x| ≤ gauss x / 2 ^ 45 := by
    rw [hg, show gauss x * Real.exp e - gauss x = gauss x * (Real.exp e - 1) from by ring, abs_mul, abs_of_pos g0, div_eq_mul_inv]
    refine mul_le_mul_of_nonneg_left ?_ g0.le
    refine (Real.abs_exp_sub_one_le (x := e) (e46.trans (by norm_num))).trans ?_
    norm_num at e46 ⊢
    linarith
  have hE' := abs_le.mp hE
  have hr := rerr (p := 24) (M.exp t)
  have m0 : (0 : ℝ) ≤ M.exp t := by
    have := Real.exp_pos (t : ℝ)
    norm_num at he
    linarith [he.1]
  rw [abs_of_nonneg m0] at hr
  have hr' := abs_le.mp hr
  rw [abs_le]
  norm_num at he hE' hr' ⊢
  constructor <;> linarith [he.1, he.2, hE'.1, hE'.2, hr'.1, hr'.2]

/-- C81: a pass of the outer loop returns the abscissa exactly if the point drawn is under the curve (or the abscissa below the threshold), unless the point is
within one part in a million of the curve. -/
theorem c81_decides {σ : Type} {M : MathFns} (hM : MathOK M) {r : Pcg σ} (hr : PcgOK r) (s : σ) :
    let n := (r.next s).1
    let x := abscissa n
    let i := stripOf n
    let u := (r.float32 (r.next s).2).1
    (|x| < zk i ∨ i = 0 ∨ OffCurve i x u) →
      ((∃ s', normPass M r s = some (.done (rne 53 x) s')) ↔ Takes i x u) ∧
      ((∃ s', normPass M r s = some (.tail (decide (0 < x)) s')) ↔ i = 0 ∧ ¬ Takes i x u) ∧
      ((∃ s', normPass M r s = some (.start s')) ↔ i ≠ 0 ∧ ¬ Takes i x u) := by
  intro n x i u hoff
  have hn : n < 2 ^ 32 := hr.next s
  have hi : i < 128 := Nat.mod_lt _ (by norm_num)
  have hfast := fast_iff hn
  have hfr : (|(x : ℝ)| < zk i) ↔ |x| < zk i := by
    constructor <;> intro h
    · exact_mod_cast h
    · exact_mod_cast h
  have hpos : (0 < int32 n) ↔ 0 < x := by
    have hz : (0 : ℚ) < zx i := by have := zx_pos hi; exact_mod_cast this
    change _ ↔ 0 < (int32 n : ℚ) / 2 ^ 31 * zx i
    rw [mul_pos_iff_of_pos_right hz]
    constructor
    · intro h
      exact div_pos (by exact_mod_cast h) (by norm_num)
    · intro h
      have := mul_pos h (show (0 : ℚ) < 2 ^ 31 from by norm_num)
      rw [div_mul_cancel₀ _ (by norm_num)] at this
      exact_mod_cast this
  rw [normPass_eq]
  simp only [Option.some.injEq]
  change ((∃ s', (if absInt32 (int32 n) < knTable.getD i 0 then NormSt.done (rne 53 x) (r.next s).2 else _) = _) ↔ _) ∧
    ((∃ s', (if absInt32 (int32 n) < knTable.getD i 0 then NormSt.done (rne 53 x) (r.next s).2 else _) = _) ↔ _) ∧
    ((∃ s', (if absInt32 (int32 n) < knTable.getD i 0 then NormSt.done (rne 53 x) (r.next s).2 else _) = _) ↔ _)
  by_cases hf : |x| < zk i
  · rw [if_pos (hfast.mpr hf)]
    have : Takes i x u := Or.inl (hfr.mpr hf)
    simp [this]
  rw [if_neg (fun h => hf (hfast.mp h))]
  by_cases h0 : i = 0
  · have hT : ¬ Takes i x u := by
      rintro (h | h)
      · exact hf (hfr.mp h)
      · have := h.1
        omega
    change ((∃ s', (if i = 0 then NormSt.tail (decide (0 < int32 n)) (r.next s).2 else _) = _) ↔ _) ∧
      ((∃ s', (if i = 0 then NormSt.tail (decide (0 < int32 n)) (r.next s).2 else _) = _) ↔ _) ∧
      ((∃ s', (if i = 0 then NormSt.tail (decide (0 < int32 n)) (r.next s).2 else _) = _) ↔ _)
    rw [if_pos h0]
    rw [h0] at hT
    simp [hT, h0, hpos]
  have hO : OffCurve i x u := by
    rcases hoff with h | h | h
    · exact absurd h hf
    · exact absurd h h0
    · exact h
  have hiff : (rne 24 (zf i + rne 24 (u * rne 24 (zf (i - 1) - zf i))) < rne 24 (M.exp (rne 53 (rne 53 (-1 / 2 * rne 53 x) * rne 53 x)))) ↔ Takes i x u := by
    have hu := hr.float32 (r.next s).2
    have x7 : |x| ≤ 7 / 2 := (abscissa_le hn).trans (strip (by omega) hi).width.2
    have a := height_close (i := i) (by omega) hi hu.1
    have b := curve_close hM x7
    have g0 := gauss_pos x
    have f0 : (0 : ℝ) < zf i := by exact_mod_cast (strip (i := i) (by omega) hi).gap.1
    have d0 := zf_lt (i := i) (by omega) hi
    have u0 : (0 : ℝ) ≤ u := by exact_mod_cast hu.1
    have y0 : (0 : ℝ) ≤ zf i + u * (zf (i - 1) - zf i) := add_nonneg f0.le (mul_nonneg u0 (by linarith))
    have T : Takes i x u ↔ (zf i : ℝ) + u * (zf (i - 1) - zf i) < gauss x := by
      unfold Takes
      constructor
      · rintro (h | h)
        · exact absurd (hfr.mp h) hf
        · exact h.2
      · intro h
        exact Or.inr ⟨by omega, h⟩
    rw [T]
    have cast : (rne 24 (zf i + rne 24 (u * rne 24 (zf (i - 1) - zf i))) < rne 24 (M.exp (rne 53 (rne 53 (-1 / 2 * rne 53 x) * rne 53 x)))) ↔
        (rne 24 (zf i + rne 24 (u * rne 24 (zf (i - 1) - zf i))) : ℝ) < (rne 24 (M.exp (rne 53 (rne 53 (-1 / 2 * rne 53 x) * rne 53 x))) : ℝ) := by
      constructor <;> intro h
      · exact_mod_cast h
      · exact_mod_cast h
    rw [cast]
    unfold OffCurve at hO
    refine (compare_close (e := 1 / 2 ^ 22) y0 g0.le (by norm_num) (by norm_num) (by rw [mul_one_div]; exact a) ?_ ?_).1
    · refine b.trans ?_
      norm_num
      linarith
    · refine lt_of_eq_of_lt ?_ hO
      norm_num
      ring
  change ((∃ s', (if i = 0 then _ else (if rne 24 (zf i + rne 24 (u * rne 24 (zf (i - 1) - zf i))) < rne 24 (M.exp (rne 53 (rne 53 (-1 / 2 * rne 53 x) * rne 53 x))) then NormSt.done (rne 53 x) (r.float32 (r.next s).2).2 else .start (r.float32 (r.next s).2).2)) = _) ↔ _) ∧
    ((∃ s', (if i = 0 then _ else (if rne 24 (zf i + rne 24 (u * rne 24 (zf (i - 1) - zf i))) < rne 24 (M.exp (rne 53 (rne 53 (-1 / 2 * rne 53 x) * rne 53 x))) then NormSt.done (rne 53 x) (r.float32 (r.next s).2).2 else .start (r.float32 (r.next s).2).2)) = _) ↔ _) ∧
    ((∃ s', (if i = 0 then _ else (if rne 24 (zf i + rne 24 (u * rne 24 (zf (i - 1) - zf i))) < rne 24 (M.exp (rne 53 (rne 53 (-1 / 2 * rne 53 x) * rne 53 x))) then NormSt.done (rne 53 x) (r.float32 (r.next s).2).2 else .start (r.float32 (r.next s).2).2)) = _) ↔ _)
  rw [if_neg h0]
  by_cases hT : Takes i x u
  · rw [if_pos (hiff.mpr hT)]
    simp [hT]
  · rw [if_neg (fun h => hT (hiff.mp h))]
    simp [hT, h0]

/-- The hypotheses are met by a point of strip 1, which is always decided by the curve. -/
example : ¬ |abscissa 1| < zk (stripOf 1) ∧ stripOf 1 ≠ 0 ∧ OffCurve (stripOf 1) (abscissa 1) (((1 / 2 : ℚ)) : ℝ) := by
  refine ⟨by decide +kernel, by decide, ?_⟩
  have h1 : ((99 / 100 : ℚ) : ℝ) ≤ gauss (abscissa 1) := gauss_lo (by decide +kernel) (by decide +kernel)
  have h2 := toR (show zf 1 + 1 / 2 * (zf (1 - 1) - zf 1) ≤ 983 / 1000 from by decide +kernel)
  push_cast at h1 h2
  have h3 := gauss_le_one (abscissa 1)
  unfold OffCurve
  change _ < |(zf 1 : ℝ) + _ * (zf (1 - 1) - zf 1) - _|
  rw [lt_abs]
  right
  push_cast
  norm_num at h1 h2 ⊢
  linarith

/-- The distance beyond `rn` that the first draw of the inner loop stands for. -/
noncomputable def overshoot (u : ℝ) : ℝ := -Real.log u * (1 / rnConst)

/-- The draws of the inner loop are not so near the boundary that rounding decides. -/
def OffTail (u v : ℝ) : Prop := (-Real.log v + -Real.log v) / 2 ^ 44 < |overshoot u ^ 2 - (-Real.log v + -Real.log v)|

theorem neglog_close {M : MathFns} (hM : MathOK M) {u : ℚ} (u0 : 0 < u) (u1 : u < 1) :
    0 < -Real.log u ∧ |((-M.log u : ℚ) : ℝ) - -Real.log u| ≤ -Real.log u / 2 ^ 50 := by
  have h0 : Real.log u < 0 := Real.log_neg (by exact_mod_cast u0) (by exact_mod_cast u1)
  have h := hM.log u u0 u1
  rw [abs_of_neg h0] at h
  refine ⟨by linarith, ?_⟩
  push_cast
  rwa [show -(M.log u : ℝ) - -Real.log u = -((M.log u : ℝ) - Real.log u) from by ring, abs_neg]

theorem overshoot_close {M : MathFns} (hM : MathOK M) {u : ℚ} (u0 : 0 < u) (u1 : u < 1) :
    0 < overshoot u ∧ |(rne 53 (-M.log u * rne 53 (1 / rnConst)) : ℝ) - overshoot u| ≤ overshoot u / 2 ^ 49 := by
  obtain ⟨l0, l1⟩ := neglog_close hM u0 u1
  obtain ⟨l, hl⟩ : ∃ l : ℝ, l = -Real.log u := ⟨_, rfl⟩
  obtain ⟨v, hv⟩ : ∃ v : ℚ, v = -M.log u := ⟨_, rfl⟩
  unfold overshoot
  rw [← hv] at l1 ⊢
  rw [← hl] at l0 l1 ⊢
  obtain ⟨c, hc⟩ : ∃ c : ℚ, c = 1 / rnConst := ⟨_, rfl⟩
  have hcr : (1 : ℝ) / rnConst = c := by rw [hc]; push_cast; rfl
  have c0 : (0 : ℝ) < c := by rw [← hcr]; exact one_div_pos.mpr rn_pos
  rw [hcr, ← hc]
  have e1 := rerr (p := 53) c
  rw [abs_of_pos c0] at e1
  have e2 := rerr (p := 53) (v * rne 53 c)
  obtain ⟨d, hd⟩ : ∃ d, d = rne 53 c := ⟨_, rfl⟩
  rw [← hd] at e1 e2 ⊢
  push_cast at e2
  obtain ⟨a1, a2⟩ := abs_le.mp l1
  obtain ⟨b1, b2⟩ := abs_le.mp e1
  have v0 : (0 : ℝ) ≤ v := by norm_num at a1; linarith
  have d0 : (0 : ℝ) ≤ d := by norm_num at b1; linarith
  rw [abs_of_nonneg (mul_nonneg v0 d0)] at e2
  obtain ⟨f1, f2⟩ := abs_le.mp e2
  have lc : 0 < l * c := mul_pos l0 c0
  refine ⟨lc, ?_⟩
  have up : (v : ℝ) * d ≤ (l + l / 2 ^ 50) * (c + c / 2 ^ 53) := mul_le_mul (by linarith) (by linarith) d0 (by positivity)
  have lo : (l - l / 2 ^ 50) * (c - c / 2 ^ 53) ≤ (v : ℝ) * d :=
    mul_le_mul (by linarith) (by linarith) (by norm_num; linarith) v0
  rw [abs_le]
  norm_num at up lo f1 f2 ⊢
  constructor <;> nlinarith

theorem tail_test_close {M : MathFns} (hM : MathOK M) {u v : ℚ} (u0 : 0 < u) (u1 : u < 1) (v0 : 0 < v) (v1 : v < 1) (h : OffTail u v) :
    tailTest (some (rne 53 (-M.log u * rne 53 (1 / rnConst)))) (some (-M.log v)) = true ↔ overshoot u ^ 2 ≤ -Real.log v + -Real.log v := by
  obtain ⟨x0, x1⟩ := overshoot_close hM u0 u1
  obtain ⟨y0, y1⟩ := neglog_close hM v0 v1
  obtain ⟨x, hx⟩ : ∃ x, x = rne 53 (-M.log u * rne 53 (1 / rnConst)) := ⟨_, rfl⟩
  obtain ⟨y, hy⟩ : ∃ y, y = -M.log v := ⟨_, rfl⟩
  unfold OffTail at h
  rw [← hx] at x1 ⊢
  rw [← hy] at y1 ⊢
  obtain ⟨X, hX⟩ : ∃ X, X = overshoot u := ⟨_, rfl⟩
  obtain ⟨Y, hY⟩ : ∃ Y, Y = -Real.log v := ⟨_, rfl⟩
  rw [← hX] at x0 x1 h ⊢
  rw [← hY] at y0 y1 h ⊢
  unfold tailTest
  rw [decide_eq_true_eq]
  have cast : rne 53 (x * x) ≤ rne 53 (y + y) ↔ (rne 53 (x * x) : ℝ) ≤ (rne 53 (y + y) : ℝ) := by
    constructor <;> intro h
    · exact_mod_cast h
    · exact_mod_cast h
  rw [cast]
  have e1 := rerr (p := 53) (x * x)
  have e2 := rerr (p := 53) (y + y)
  push_cast at e1 e2
  obtain ⟨a1, a2⟩ := abs_le.mp x1
  obtain ⟨b1, b2⟩ := abs_le.mp y1
  have xp : (0 : ℝ) ≤ x := by norm_num at a1; linarith
  have yp : (0 : ℝ) ≤ y := by norm_num at b1; linarith
  rw [abs_of_nonneg (mul_nonneg xp xp)] at e1
  rw [abs_of_nonneg (add_nonneg yp yp)] at e2
  obtain ⟨f1, f2⟩ := abs_le.mp e1
  obtain ⟨g1, g2⟩ := abs_le.mp e2
  have up : (x : ℝ) * x ≤ (X + X / 2 ^ 49) * (X + X / 2 ^ 49) := mul_le_mul (by linarith) (by linarith) xp (by positivity)
  have lo : (X - X / 2 ^ 49) * (X - X / 2 ^ 49) ≤ (x : ℝ) * x := mul_le_mul (by linarith) (by linarith) (by norm_num; linarith) xp
  have xx : 0 < X * X := mul_pos x0 x0
  refine (compare_close (e := 1 / 2 ^ 46) (by positivity) (by positivity) (by norm_num) (by norm_num) ?_ ?_ ?_).2
  · rw [abs_le, pow_two]
    norm_num at up lo f1 f2 ⊢
    constructor <;> nlinarith
  · rw [abs_le]
    norm_num at b1 b2 g1 g2 ⊢
    constructor <;> linarith
  · refine lt_of_eq_of_lt ?_ h
    norm_num
    ring

/-- C81: a pass of the inner loop ends exactly if the point drawn is under the curve, unless it is very near it, and then the result is the abscissa of the
point, up to rounding, on the side of `j`. -/
theorem c81_tail {σ : Type} {M : MathFns} (hM : MathOK M) {r : Pcg σ} (hr : PcgOK r) (pos : Bool) (s : σ) :
    let u := (r.float32 s).1
    let v := (r.float32 (r.float32 s).2).1
    let s' := (r.float32 (r.float32 s).2).2
    u ≠ 0 → v ≠ 0 → OffTail u v →
      ((((u : ℝ), (v : ℝ)) ∈ TailSet Set.univ → ∃ x, tailPass M r pos s = .done x s' ∧
          |(if pos then (x : ℝ) else -x) - (rnConst + overshoot u)| ≤ (rnConst + overshoot u) / 2 ^ 48) ∧
      (((u : ℝ), (v : ℝ)) ∉ TailSet Set.univ → tailPass M r pos s = .tail pos s')) := by
  intro u v s' hu hv hoff
  have ur := hr.float32 s
  have vr := hr.float32 (r.float32 s).2
  have u0 : 0 < u := lt_of_le_of_ne ur.1 (Ne.symm hu)
  have v0 : 0 < v := lt_of_le_of_ne vr.1 (Ne.symm hv)
  have ht := tail_test_close hM u0 ur.2 v0 vr.2 hoff
  have hmem : (((u : ℝ), (v : ℝ)) ∈ TailSet Set.univ) ↔ overshoot u ^ 2 ≤ -Real.log v + -Real.log v := by
    have a1 : (0 : ℝ) < u := by exact_mod_cast u0
    have a2 : (u : ℝ) ≤ 1 := by exact_mod_cast ur.2.le
    have b1 : (0 : ℝ) < v := by exact_mod_cast v0
    have b2 : (v : ℝ) ≤ 1 := by exact_mod_cast vr.2.le
    constructor
    · intro h; exact h.2.2.2
    · intro h; exact ⟨⟨a1, a2⟩, ⟨b1, b2⟩, Set.mem_univ _, h⟩
  have hpass : tailPass M r pos s = if tailTest (some (rne 53 (-M.log u * rne 53 (1 / rnConst)))) (some (-M.log v)) then
      .done (if pos then rne 53 (rne 53 rnConst + rne 53 (-M.log u * rne 53 (1 / rnConst))) else rne 53 (-rne 53 rnConst - rne 53 (-M.log u * rne 53 (1 / rnConst)))) s'
      else .tail pos s' := by
    unfold tailPass
    have n1 : negLog M (r.float32 s).1 = some (-M.log u) := if_neg hu
    have n2 : negLog M (r.float32 (r.float32 s).2).1 = some (-M.log v) := if_neg hv
    simp only [n1, n2, Option.map_some]
    rfl
  rw [hmem]
  constructor
  · intro h
    rw [hpass, if_pos (ht.mpr h)]
    refine ⟨_, rfl, ?_⟩
    obtain ⟨x0, x1⟩ := overshoot_close hM u0 ur.2
    obtain ⟨x, hx⟩ : ∃ x, x = rne 53 (-M.log u * rne 53 (1 / rnConst)) := ⟨_, rfl⟩
    rw [← hx] at x1 ⊢
    have e1 := rerr (p := 53) rnConst
    rw [abs_of_pos rn_pos] at e1
    obtain ⟨a1, a2⟩ := abs_le.mp x1
    obtain ⟨b1, b2⟩ := abs_le.mp e1
    have xp : (0 : ℝ) ≤ x := by norm_num at a1; linarith
    have rp := rn_pos
    have rq : (0 : ℝ) ≤ rne 53 rnConst := by norm_num at b1; linarith
    have e2 := rerr (p := 53) (rne 53 rnConst + x)
    push_cast at e2
    rw [abs_of_nonneg (add_nonneg rq xp)] at e2
    obtain ⟨c1, c2⟩ := abs_le.mp e2
    have hneg : rne 53 (-rne 53 rnConst - x) = -rne 53 (rne 53 rnConst + x) := by
      rw [show -rne 53 rnConst - x = -(rne 53 rnConst + x) from by ring, rne_neg]
    have key : |(rne 53 (rne 53 rnConst + x) : ℝ) - (rnConst + overshoot u)| ≤ (rnConst + overshoot u) / 2 ^ 48 := by
      rw [abs_le]
      norm_num at a1 a2 b1 b2 c1 c2 ⊢
      constructor <;> linarith
    cases pos with
    | true => simpa using key
    | false =>
      rw [hneg]
      simpa using key
  · intro h
    rw [hpass, if_neg (fun h' => h (ht.mp h'))]

/-- The hypotheses are met by the draws one half and one half. -/
example : OffTail ((1 / 2 : ℚ) : ℝ) ((1 / 2 : ℚ) : ℝ) ∧ (((1 / 2 : ℚ) : ℝ), ((1 / 2 : ℚ) : ℝ)) ∈ TailSet Set.univ := by
  have l1 := Real.log_two_lt_d9
  have l2 := Real.log_two_gt_d9
  have hl : -Real.log (((1 / 2 : ℚ)) : ℝ) = Real.log 2 := by
    push_cast
    rw [one_div, Real.log_inv, neg_neg]
  have ho : overshoot ((1 / 2 : ℚ) : ℝ) ^ 2 ≤ 1 / 2 := by
    unfold overshoot
    rw [hl]
    have : (0 : ℝ) ≤ 1 / rnConst ∧ (1 : ℝ) / rnConst ≤ 1 / 3 := by unfold rnConst; norm_num
    have h3 : Real.log 2 * (1 / (rnConst : ℝ)) ≤ 0.7 * (1 / 3) := mul_le_mul (by norm_num at l1 ⊢; linarith) this.2 this.1 (by norm_num)
    have h0 : 0 ≤ Real.log 2 * (1 / (rnConst : ℝ)) := mul_nonneg (by norm_num at l2; linarith) this.1
    nlinarith
  have hs := sq_nonneg (overshoot ((1 / 2 : ℚ) : ℝ))
  constructor
  · unfold OffTail
    rw [hl, lt_abs]
    right
    norm_num at l1 l2 ho hs ⊢
    linarith
  · refine ⟨by norm_num, by norm_num, Set.mem_univ _, ?_⟩
    change overshoot ((1 / 2 : ℚ) : ℝ) ^ 2 ≤ _
    change _ ≤ -Real.log (((1 / 2 : ℚ)) : ℝ) + -Real.log (((1 / 2 : ℚ)) : ℝ)
    rw [hl]
    norm_num at l1 l2 ho hs ⊢
    linarith

/-- C81: the result is finite, unless `Float32` returns zero twice in a row. -/
theorem c81_finite {σ : Type} (M : MathFns) (r : Pcg σ) (hz : ∀ s, (r.float32 s).1 = 0 → (r.float32 (r.float32 s).2).1 ≠ 0) (s : σ) (pos : Bool) (s' : σ) :
    ¬ NormRun M r (.start s) (.doneInf pos s') := by
  intro h
  have key : ∀ b, NormRun M r (.start s) b → ∀ pos s', b ≠ .doneInf pos s' := by
    intro b hb
    induction hb with
    | refl => intro _ _ h; cases h
    | tail _ hstep ih =>
      rename_i b c _
      intro pos s' hc
      subst hc
      cases b with
      | start t =>
        have hs : normPass M r t = some (.doneInf pos s') := hstep
        rw [normPass_eq] at hs
        have := Option.some.inj hs
        dsimp only at this
        split at this
        · cases this
        · split at this
          · cases this
          · split at this <;> cases this
      | tail q t =>
        have hs : some (tailPass M r q t) = some (.doneInf pos s') := hstep
        have hs := Option.some.inj hs
        unfold tailPass at hs
        dsimp only at hs
        split at hs
        · rename_i htest
          split at hs
          · rename_i hx
            rw [hx] at htest
            have z1 : (r.float32 t).1 = 0 := by
              by_contra h
              rw [show negLog M (r.float32 t).1 = some (-M.log (r.float32 t).1) from if_neg h] at hx
              cases hx
            have z2 := hz t z1
            rw [show negLog M (r.float32 (r.float32 t).2).1 = some (-M.log (r.float32 (r.float32 t).2).1) from if_neg z2] at htest
            cases htest
          · cases hs
        · cases hs
      | done x t =>
        have hs : some (NormSt.done x t) = some (.doneInf pos s') := hstep
        cases hs
      | doneInf q t => exact ih q t rfl
  exact key _ h pos s' rfl

/-- The hypothesis is met by the generator of the examples. -/
example : ∀ s, (halfPcg.float32 s).1 = 0 → (halfPcg.float32 (halfPcg.float32 s).2).1 ≠ 0 := by
  intro s _
  change (1 / 2 : ℚ) ≠ 0
  norm_num

/-- C81: it may be infinite otherwise. -/
theorem c81_finite_false (M : MathFns) : ∃ r : Pcg Unit, PcgOK r ∧ NormRun M r (.start ()) (.doneInf true ()) := by
  refine ⟨zeroPcg, zeroPcg_ok, ?_⟩
  refine Relation.ReflTransGen.trans (Relation.ReflTransGen.single (b := .tail true ()) ?_) (Relation.ReflTransGen.single ?_)
  · change normPass M zeroPcg () = _
    rw [normPass_eq]
    dsimp only [zeroPcg]
    rw [if_neg (by decide), if_pos (by decide)]
    rfl
  · rfl

/-- C81: the size of the result, for a generator whose smallest positive `Float32` is `2^-k`. -/
theorem c81_range {σ : Type} {M : MathFns} (hM : MathOK M) {r : Pcg σ} (hr : PcgOK r) (k : Nat) (hk : ∀ s, (r.float32 s).1 ≠ 0 → 1 / 2 ^ k ≤ (r.float32 s).1)
    (s : σ) (x : ℚ) (s' : σ) (h : NormRun M r (.start s) (.done x s')) : |x| ≤ 5 + k / 4 := by
  have small {y : ℚ} {B : ℚ} (h : |y| ≤ B) : |rne 53 y| ≤ B * (1 + 1 / 2 ^ 53) := by
    calc |rne 53 y| = |(rne 53 y - y) + y| := by ring_nf
      _ ≤ |rne 53 y - y| + |y| := abs_add_le _ _
      _ ≤ B * (1 + 1 / 2 ^ 53) := by
        have := rne_err 53 y
        norm_num at this ⊢
        linarith
  have k0 : (0 : ℚ) ≤ k := Nat.cast_nonneg k
  have key : ∀ b, NormRun M r (.start s) b → ∀ x s', b = .done x s' → |x| ≤ 5 + (k : ℚ) / 4 := by
    intro b hb
    induction hb with
    | refl => intro _ _ h; cases h
    | tail _ hstep ih =>
      rename_i b c _
      intro x s' hc
      subst hc
      cases b with
      | start t =>
        have hs : normPass M r t = some (.done x s') := hstep
        have hx : x = rne 53 (abscissa (r.next t).1) := by
          rw [normPass_eq] at hs
          have := Option.some.inj hs
          dsimp only at this
          split at this
          · cases this; rfl
          · split at this
            · cases this
            · split at this
              · cases this; rfl
              · cases this
        have ha : |abscissa (r.next t).1| ≤ 4 := (abscissa_le (hr.next t)).trans (zx_le (Nat.mod_lt _ (by norm_num)))
        have := small ha
        rw [hx]
        norm_num at this ⊢
        linarith
      | tail q t =>
        have hs : some (tailPass M r q t) = some (.done x s') := hstep
        have hs := Option.some.inj hs
        have hx : (r.float32 t).1 ≠ 0 ∧ |x| = |rne 53 (rne 53 rnConst + rne 53 (-M.log (r.float32 t).1 * rne 53 (1 / rnConst)))| := by
          unfold tailPass at hs
          dsimp only at hs
          split at hs
          · split at hs
            · cases hs
            · rename_i y hy
              by_cases hz : (r.float32 t).1 = 0
              · rw [show negLog M (r.float32 t).1 = none from if_pos hz] at hy
                cases hy
              · refine ⟨hz, ?_⟩
                rw [show negLog M (r.float32 t).1 = some (-M.log (r.float32 t).1) from if_neg hz, Option.map_some] at hy
                have hy := Option.some.inj hy
                subst hy
                injection hs with hs1 hs2
                rw [← hs1]
                cases q with
                | true => rfl
                | false =>
                  change |rne 53 (-rne 53 rnConst - _)| = _
                  rw [show -rne 53 rnConst - rne 53 (-M.log (r.float32 t).1 * rne 53 (1 / rnConst)) = -(rne 53 rnConst + rne 53 (-M.log (r.float32 t).1 * rne 53 (1 / rnConst))) from by ring, rne_neg, abs_neg]
          · cases hs
        obtain ⟨hz, hx⟩ := hx
        have ur := hr.float32 t
        have u0 : 0 < (r.float32 t).1 := lt_of_le_of_ne ur.1 (Ne.symm hz)
        obtain ⟨x0, x1⟩ := overshoot_close hM u0 ur.2
        have hover : overshoot (r.float32 t).1 ≤ (k : ℝ) * 0.22 := by
          have hu := toR (hk t hz)
          push_cast at hu
          have hlog : -Real.log ((r.float32 t).1 : ℝ) ≤ k * Real.log 2 := by
            have := Real.log_le_log (by positivity) hu
            rw [Real.log_div one_ne_zero (by positivity), Real.log_one, Real.log_pow] at this
            linarith
          have l2 := Real.log_two_lt_d9
          have rp := rn_pos
          unfold overshoot
          rw [mul_one_div, div_le_iff₀ rp]
          have : (3.4 : ℝ) ≤ rnConst := by unfold rnConst; norm_num
          have kk : (0 : ℝ) ≤ k := Nat.cast_nonneg k
          have h1 : (k : ℝ) * Real.log 2 ≤ k * 0.7 := mul_le_mul_of_nonneg_left (by norm_num at l2 ⊢; linarith) kk
          have h2 : (k : ℝ) * 3.4 ≤ k * rnConst := mul_le_mul_of_nonneg_left this kk
          nlinarith
        have hq : |rne 53 (-M.log (r.float32 t).1 * rne 53 (1 / rnConst))| ≤ (k : ℚ) * 0.23 := by
          have : |(rne 53 (-M.log (r.float32 t).1 * rne 53 (1 / rnConst)) : ℝ)| ≤ (k : ℝ) * 0.23 := by
            obtain ⟨y, hy⟩ : ∃ y, y = rne 53 (-M.log (r.float32 t).1 * rne 53 (1 / rnConst)) := ⟨_, rfl⟩
            rw [← hy] at x1 ⊢
            obtain ⟨a1, a2⟩ := abs_le.mp x1
            rw [abs_of_nonneg (by norm_num at a1; linarith)]
            norm_num at a2 hover ⊢
            linarith
          have hc : ((|rne 53 (-M.log (r.float32 t).1 * rne 53 (1 / rnConst))| : ℚ) : ℝ) ≤ (((k : ℚ) * 0.23 : ℚ) : ℝ) := by
            push_cast
            norm_num at this ⊢
            exact this
          exact_mod_cast hc
        have hrn : |rne 53 rnConst| ≤ 4 := by
          have := small (y := rnConst) (B := 3.5) (by unfold rnConst; norm_num [abs_of_pos])
          norm_num at this ⊢
          linarith
        rw [hx]
        have hsum := small (y := rne 53 rnConst + rne 53 (-M.log (r.float32 t).1 * rne 53 (1 / rnConst))) (B := 4 + (k : ℚ) * 0.23)
          ((abs_add_le _ _).trans (add_le_add hrn hq))
        norm_num at hsum ⊢
        linarith
      | done y t =>
        have hs : some (NormSt.done y t) = some (.done x s') := hstep
        have := Option.some.inj hs
        cases this
        exact ih _ _ rfl
      | doneInf q t =>
        have hs : some (NormSt.doneInf q t) = some (.done x s') := hstep
        cases hs
  exact key _ h x s' rfl

/-- The hypothesis is met by the generator of the examples, and runs end. -/
example (M : MathFns) : (∀ s, (halfPcg.float32 s).1 ≠ 0 → 1 / 2 ^ 1 ≤ (halfPcg.float32 s).1) ∧ NormRun M halfPcg (.start 0) (.done 0 1) := by
  refine ⟨fun s _ => by change (1 / 2 ^ 1 : ℚ) ≤ 1 / 2; norm_num, Relation.ReflTransGen.single ?_⟩
  change normPass M halfPcg 0 = _
  rw [normPass_eq]
  dsimp only [halfPcg]
  rw [if_pos (by decide)]
  simp [abscissa, int32, rne_zero]

/-- C81: the tables. The right end of strip `i` is on the curve at height `fn[i]`, its threshold is on the curve at height `fn[i-1]`, all strips have the same area,
and the base strip has the area of its rectangle and of the tail of the curve. -/
theorem c81_tables : (∀ i, 1 ≤ i → i < 128 →
      |gauss (zx i) - zf i| ≤ 3 / 10 ^ 7 * zf i ∧ |gauss (zk i) - zf (i - 1)| ≤ 3 / 10 ^ 7 * zf (i - 1) ∧ |(zx i : ℝ) * (zf (i - 1) - zf i) - zv| ≤ 5 / 10 ^ 6 * zv) ∧
    zf 0 = 1 ∧ |(zx 0 : ℝ) * zf 127 - zv| ≤ 1 / 10 ^ 8 * zv ∧ |(1 - (zk 0 : ℝ) / zx 0) * zv - ∫ x in Set.Ioi (rnConst : ℝ), gauss x| ≤ 1 / 10 ^ 6 * ∫ x in Set.Ioi (rnConst : ℝ), gauss x := by
  refine ⟨?_, base_strip.1, ?_, tail_share⟩
  · intro i h1 h2
    have S := strip h1 h2
    have b1 : |zx i| ≤ 4 := by rw [abs_of_pos S.width.1]; exact S.width.2.trans (by norm_num)
    have b2 : |zk i| ≤ 4 := by rw [abs_of_nonneg S.thresh.1]; exact S.thresh.2.trans (S.width.2.trans (by norm_num))
    have a1 := gauss_lo b1 S.height1
    have a2 := gauss_hi b1 S.height2
    have a3 := gauss_lo b2 S.thresh1
    have a4 := gauss_hi b2 S.thresh2
    have a5 := toR S.area1
    have a6 := toR S.area2
    push_cast at a1 a2 a3 a4 a5 a6
    refine ⟨?_, ?_, ?_⟩ <;> rw [abs_le] <;> constructor <;> linarith
  · obtain ⟨-, -, a1, a2, -⟩ := base_strip
    have a1 := toR a1
    have a2 := toR a2
    push_cast at a1 a2
    rw [abs_le]
    constructor <;> linarith

/-- C81: the law of the result, for independent and uniform draws and without rounding: a pass of the outer loop returns with probability between 98 and 99 per cent,
and given that it does, the result is in `B` with the probability of the standard normal distribution, up to 3 in 100000; the lower bound is for the sets that avoid
the gap of width `2 * 10^-7` between the end of the base strip and the tail. -/
theorem c81_law_partial {B : Set ℝ} (hB : MeasurableSet B) :
    (ENNReal.ofReal 0.98 ≤ fullProb Set.univ ∧ fullProb Set.univ ≤ ENNReal.ofReal 0.99) ∧
    fullProb B ≤ ENNReal.ofReal (1 + 3 / 10 ^ 5) * ProbabilityTheory.gaussianReal 0 1 B * fullProb Set.univ ∧
    (Disjoint B Gap → ENNReal.ofReal (1 - 3 / 10 ^ 5) * ProbabilityTheory.gaussianReal 0 1 B * fullProb Set.univ ≤ fullProb B) := by
  obtain ⟨f1, f2⟩ := passFactor_bounds
  obtain ⟨u1, u2⟩ := fullProb_univ
  refine ⟨⟨le_trans (ENNReal.ofReal_le_ofReal ?_) u1, u2.trans (ENNReal.ofReal_le_ofReal ?_)⟩, law_close hB⟩
  · norm_num at f1 ⊢
    linarith
  · norm_num at f2 ⊢
    linarith

/-- The hypothesis of the lower bound is met by intervals. -/
example : Disjoint (Set.Icc (-3 : ℝ) 3) Gap := by
  rw [Set.disjoint_left]
  rintro x ⟨h1, h2⟩ ⟨h3, -⟩
  have hz := toR (show (3.4 : ℚ) ≤ zk 0 from by decide +kernel)
  have : |x| ≤ 3 := abs_le.mpr ⟨h1, h2⟩
  push_cast at hz
  norm_num at hz
  linarith

/-- C81: every number is missed by the lower bound only if it is in the gap, which has a probability of at most 3 in 10 million. -/
theorem c81_gap : ProbabilityTheory.gaussianReal 0 1 Gap ≤ ENNReal.ofReal (3 / 10 ^ 7) := gap_small

end Verif.Props

import Verif.Small.Ziggurat
import Mathlib.MeasureTheory.Measure.Lebesgue.Basic
import Mathlib.MeasureTheory.Measure.Prod
import Mathlib.Tactic.FieldSimp

/-!
# The density of the numbers returned by a pass of `NormFloat64`
-/

namespace Verif.Small

open MeasureTheory

/-- The density of the normal distribution up to a factor. -/
noncomputable def gauss (x : ℝ) : ℝ := Real.exp (-x ^ 2 / 2)

/-- What the pass decides in exact arithmetic: strip `i`, abscissa `x`, the number `u` drawn for the height. -/
def Takes (i : Nat) (x u : ℝ) : Prop := |x| < zk i ∨ (1 ≤ i ∧ zf i + u * (zf (i - 1) - zf i) < gauss x)

/-- The probability that abscissa `x` of strip `i` is taken. -/
noncomputable def hit (i : Nat) (x : ℝ) : ENNReal := volume {u : ℝ | u ∈ Set.Icc (0 : ℝ) 1 ∧ Takes i x u}

theorem gauss_pos (x : ℝ) : 0 < gauss x := Real.exp_pos _

theorem gauss_le_one (x : ℝ) : gauss x ≤ 1 := by
  unfold gauss
  rw [Real.exp_le_one_iff]
  have : 0 ≤ x ^ 2 := sq_nonneg x
  linarith

theorem gauss_anti {x y : ℝ} (h : |x| ≤ |y|) : gauss y ≤ gauss x := by
  unfold gauss
  have := sq_le_sq.mpr h
  gcongr

theorem gauss_rat (q : ℚ) : gauss q = Real.exp (-((q ^ 2 / 2 : ℚ) : ℝ)) := by
  unfold gauss
  congr 1
  push_cast
  ring

theorem gauss_lo {q c : ℚ} (h0 : |q| ≤ 4) (h : c ≤ expLo (q ^ 2 / 2)) : (c : ℝ) ≤ gauss q := by
  rw [gauss_rat]
  refine le_trans (by exact_mod_cast h) (expLo_le (by positivity) ?_)
  have : q ^ 2 ≤ 4 ^ 2 := sq_le_sq.mpr (by rw [abs_of_pos (by norm_num : (0 : ℚ) < 4)]; exact h0)
  linarith

theorem gauss_hi {q c : ℚ} (h0 : |q| ≤ 4) (h : expHi (q ^ 2 / 2) ≤ c) : gauss q ≤ c := by
  rw [gauss_rat]
  refine le_trans (le_expHi (by positivity) ?_) (by exact_mod_cast h)
  have : q ^ 2 ≤ 4 ^ 2 := sq_le_sq.mpr (by rw [abs_of_pos (by norm_num : (0 : ℚ) < 4)]; exact h0)
  linarith

theorem toR {a b : ℚ} (h : a ≤ b) : (a : ℝ) ≤ b := by exact_mod_cast h

/-- The part of `[0, 1]` below a line. -/
theorem volume_below {a b f : ℝ} (hab : a < b) :
    volume {u : ℝ | u ∈ Set.Icc (0 : ℝ) 1 ∧ a + u * (b - a) < f} = ENNReal.ofReal ((max (f - a) 0 - max (f - b) 0) / (b - a)) := by
  have hd : 0 < b - a := by linarith
  have hset : {u : ℝ | u ∈ Set.Icc (0 : ℝ) 1 ∧ a + u * (b - a) < f} = Set.Icc 0 1 ∩ Set.Iio ((f - a) / (b - a)) := by
    ext u
    simp only [Set.mem_ofPred_eq, Set.mem_inter_iff, Set.mem_Iio, lt_div_iff₀ hd]
    constructor <;> rintro ⟨h1, h2⟩ <;> exact ⟨h1, by linarith⟩
  rw [hset]
  rcases le_or_gt f a with h1 | h1
  · have : Set.Icc 0 1 ∩ Set.Iio ((f - a) / (b - a)) = ∅ := by
      ext u
      simp only [Set.mem_inter_iff, Set.mem_Icc, Set.mem_Iio, Set.mem_empty_iff_false, iff_false, not_and, not_lt]
      intro hu
      exact (div_nonpos_of_nonpos_of_nonneg (by linarith) hd.le).trans hu.1
    rw [this, measure_empty, max_eq_right (by linarith), max_eq_right (by linarith)]
    simp
  · rcases le_or_gt f b with h2 | h2
    · have hc : (f - a) / (b - a) ≤ 1 := by rw [div_le_one hd]; linarith
      have : Set.Icc 0 1 ∩ Set.Iio ((f - a) / (b - a)) = Set.Ico 0 ((f - a) / (b - a)) := by
        ext u
        simp only [Set.mem_inter_iff, Set.mem_Icc, Set.mem_Iio, Set.mem_Ico]
        constructor
        · rintro ⟨⟨h, -⟩, h'⟩; exact ⟨h, h'⟩
        · rintro ⟨h, h'⟩; exact ⟨⟨h, by linarith⟩, h'⟩
      rw [this, Real.volume_Ico, max_eq_left (by linarith), max_eq_right (by linarith)]
      simp
    · have hc : 1 < (f - a) / (b - a) := by rw [one_lt_div hd]; linarith
      have : Set.Icc 0 1 ∩ Set.Iio ((f - a) / (b - a)) = Set.Icc 0 1 := by
        rw [Set.inter_eq_left]
        intro u hu
        exact lt_of_le_of_lt hu.2 hc
      rw [this, Real.volume_Icc, max_eq_left (by linarith), max_eq_left (by linarith)]
      congr 1
      field_simp
      ring

/-- The same as a number. -/
noncomputable def hitR (i : Nat) (x : ℝ) : ℝ :=
  if |x| < zk i then 1 else if i = 0 then 0 else (max (gauss x - zf i) 0 - max (gauss x - zf (i - 1)) 0) / (zf (i - 1) - zf i)

theorem zf_lt {i : Nat} (h1 : 1 ≤ i) (h2 : i < 128) : (zf i : ℝ) < zf (i - 1) := by
  have := (strip h1 h2).gap
  have : zf i < zf (i - 1) := by linarith
  exact_mod_cast this

theorem hit_eq {i : Nat} (hi : i < 128) (x : ℝ) : hit i x = ENNReal.ofReal (hitR i x) := by
  unfold hit hitR Takes
  split
  · rename_i h
    simp only [h, true_or, and_true]
    rw [show {u : ℝ | u ∈ Set.Icc (0 : ℝ) 1} = Set.Icc 0 1 from rfl, Real.volume_Icc]
    norm_num
  · rename_i h
    split
    · rename_i h0
      subst h0
      simp [h]
    · rename_i h0
      rw [← volume_below (zf_lt (by omega) hi)]
      congr 1
      ext u
      simp only [h, false_or, Set.mem_ofPred_eq]
      constructor
      · rintro ⟨a, -, b⟩; exact ⟨a, b⟩
      · rintro ⟨a, b⟩; exact ⟨a, by omega, b⟩

theorem hitR_nonneg {i : Nat} (hi : i < 128) (x : ℝ) : 0 ≤ hitR i x := by
  unfold hitR
  split
  · norm_num
  · split
    · exact le_rfl
    · have := zf_lt (i := i) (by omega) hi
      refine div_nonneg ?_ (by linarith)
      have : max (gauss x - zf (i - 1)) 0 ≤ max (gauss x - zf i) 0 := max_le_max (by linarith) le_rfl
      linarith

/-- The density of the abscissas returned by a pass. -/
noncomputable def density (x : ℝ) : ℝ := ∑ i ∈ Finset.range 128, if |x| ≤ zx i then hitR i x / (256 * zx i) else 0

/-- The difference between what strip `i` takes and what is under the curve. -/
noncomputable def excess (i : Nat) (x : ℝ) : ℝ :=
  (if |x| ≤ zx i then hitR i x else 0) * (zf (i - 1) - zf i) - (max (gauss x - zf i) 0 - max (gauss x - zf (i - 1)) 0)

theorem excess_cases {i : Nat} (h1 : 1 ≤ i) (h2 : i < 128) (x : ℝ) (hne : excess i x ≠ 0) :
    ((zf i : ℝ) < gauss x ∧ gauss x ≤ zf i * (1 + 3 / 10 ^ 7) ∨ (zf (i - 1) : ℝ) * (1 - 3 / 10 ^ 7) ≤ gauss x ∧ gauss x < zf (i - 1)) ∧
      |excess i x| ≤ 4 / 10 ^ 7 * gauss x := by
  have S := strip h1 h2
  have hlt := zf_lt h1 h2
  have f0 : (0 : ℝ) < zf i := by exact_mod_cast S.gap.1
  have g0 := gauss_pos x
  have gapR : (zf i : ℝ) * (1 + 1 / 1000) ≤ zf (i - 1) := by have := toR S.gap.2; push_cast at this; exact this
  unfold excess at hne ⊢
  by_cases hx : |x| ≤ zx i
  · simp only [hx, if_true] at hne ⊢
    unfold hitR at hne ⊢
    by_cases hk : |x| < zk i
    · simp only [hk, if_true, one_mul] at hne ⊢
      have k4 : |zk i| ≤ 4 := by rw [abs_of_nonneg S.thresh.1]; linarith [S.thresh.2, S.width.2]
      have lo := gauss_lo k4 S.thresh1
      have mono : gauss (zk i) ≤ gauss x := gauss_anti (by
        rw [abs_of_nonneg (by exact_mod_cast S.thresh.1 : (0 : ℝ) ≤ zk i)]; exact hk.le)
      push_cast at lo
      have lo' : (zf (i - 1) : ℝ) * (1 - 3 / 10 ^ 7) ≤ gauss x := by linarith
      have big : (zf i : ℝ) ≤ gauss x := by norm_num at lo' gapR ⊢; linarith
      rw [max_eq_left (by linarith)] at hne ⊢
      rcases le_or_gt (zf (i - 1) : ℝ) (gauss x) with h | h
      · rw [max_eq_left (by linarith)] at hne
        exact absurd (by ring) hne
      · rw [max_eq_right (by linarith)] at hne ⊢
        refine ⟨Or.inr ⟨lo', h⟩, ?_⟩
        rw [abs_le]
        norm_num at lo' ⊢
        constructor <;> linarith
    · have h0 : i ≠ 0 := by omega
      simp only [hk, h0, if_false] at hne
      rw [div_mul_cancel₀ _ (by linarith)] at hne
      exact absurd (sub_self _) hne
  · simp only [hx, if_false, zero_mul, zero_sub] at hne ⊢
    have x4 : |zx i| ≤ 4 := by rw [abs_of_pos S.width.1]; linarith [S.width.2]
    have hi := gauss_hi x4 S.height2
    have mono : gauss x ≤ gauss (zx i) := gauss_anti (by
      rw [abs_of_pos (by exact_mod_cast S.width.1 : (0 : ℝ) < zx i)]; exact (not_le.mp hx).le)
    push_cast at hi
    have hi' : gauss x ≤ zf i * (1 + 3 / 10 ^ 7) := by linarith
    have small : gauss x ≤ zf (i - 1) := by norm_num at hi' gapR ⊢; linarith
    have e0 : max (gauss x - zf (i - 1)) 0 = 0 := max_eq_right (by linarith)
    rw [e0, sub_zero] at hne ⊢
    rcases le_or_gt (gauss x) (zf i) with h | h
    · rw [max_eq_right (by linarith)] at hne
      exact absurd neg_zero hne
    · rw [max_eq_left (by linarith)]
      refine ⟨Or.inl ⟨h, hi'⟩, ?_⟩
      rw [abs_le]
      norm_num at hi' ⊢
      constructor <;> linarith

/-- At most one strip differs. -/
theorem excess_one {i k : Nat} (h1 : 1 ≤ i) (h2 : i < k) (h3 : k < 128) (x : ℝ) (hi : excess i x ≠ 0) (hk : excess k x ≠ 0) : False := by
  have a := (excess_cases h1 (by omega) x hi).1
  have b := (excess_cases (by omega) h3 x hk).1
  have pi : (0 : ℝ) < zf i := by exact_mod_cast (strip h1 (by omega)).gap.1
  have pk : (0 : ℝ) < zf k := by exact_mod_cast (strip (by omega) h3).gap.1
  have g1 : (zf k : ℝ) * (1 + 1 / 1000) ≤ zf i := by have := toR (zf_gap h2 h3); push_cast at this; exact this
  have g2 : (zf i : ℝ) < zf (i - 1) := zf_lt h1 (by omega)
  have g4 : (zf i : ℝ) * (1 + 1 / 1000) ≤ zf (i - 1) := by have := toR (strip h1 (by omega : i < 128)).gap.2; push_cast at this; exact this
  have g3 : (zf (k - 1) : ℝ) ≤ zf i := by
    rcases Nat.lt_or_ge i (k - 1) with h | h
    · have : (zf (k - 1) : ℝ) * (1 + 1 / 1000) ≤ zf i := by have := toR (zf_gap h (by omega : k - 1 < 128)); push_cast at this; exact this
      have : (0 : ℝ) < zf (k - 1) := by exact_mod_cast (strip (i := k - 1) (by omega) (by omega)).gap.1
      linarith
    · have : k - 1 = i := by omega
      rw [this]
  norm_num at a b g1 g4
  rcases a with ⟨a1, a2⟩ | ⟨a1, a2⟩ <;> rcases b with ⟨b1, b2⟩ | ⟨b1, b2⟩ <;> linarith

theorem excess_sum (x : ℝ) : |∑ i ∈ Finset.range 127, excess (i + 1) x| ≤ 4 / 10 ^ 7 * gauss x := by
  by_cases h : ∃ i ∈ Finset.range 127, excess (i + 1) x ≠ 0
  · obtain ⟨i, hi, hne⟩ := h
    rw [Finset.mem_range] at hi
    rw [Finset.sum_eq_single i]
    · exact (excess_cases (by omega) (by omega) x hne).2
    · intro k hk hki
      rw [Finset.mem_range] at hk
      by_contra hne'
      rcases Nat.lt_or_ge i k with h | h
      · exact excess_one (i := i + 1) (k := k + 1) (by omega) (by omega) (by omega) x hne hne'
      · exact excess_one (i := k + 1) (k := i + 1) (by omega) (by omega) (by omega) x hne' hne
    · intro hn
      exact absurd (Finset.mem_range.mpr hi) hn
  · push Not at h
    rw [Finset.sum_eq_zero h, abs_zero]
    have := gauss_pos x
    positivity

/-- What all strips but the base take, and the base. -/
theorem taken_sum (x : ℝ) : ∑ i ∈ Finset.range 127, (if |x| ≤ zx (i + 1) then hitR (i + 1) x else 0) * (zf i - zf (i + 1)) =
    max (gauss x - zf 127) 0 + ∑ i ∈ Finset.range 127, excess (i + 1) x := by
  have tele : ∀ n : Nat, ∑ i ∈ Finset.range n, (max (gauss x - zf (i + 1)) 0 - max (gauss x - zf i) 0) = max (gauss x - zf n) 0 - max (gauss x - zf 0) 0 :=
    fun n => Finset.sum_range_sub (fun i => max (gauss x - zf i) 0) n
  have z : max (gauss x - zf 0) 0 = 0 := by
    rw [base_strip.1]
    have := gauss_le_one x
    push_cast
    exact max_eq_right (by linarith)
  have := tele 127
  rw [z, sub_zero] at this
  rw [← this, ← Finset.sum_add_distrib]
  refine Finset.sum_congr rfl fun i _ => ?_
  unfold excess
  simp only [Nat.add_sub_cancel]
  ring

/-- Between the thresholds of the base strip the density is that of the normal distribution, up to 1 in 100000. -/
theorem density_close {x : ℝ} (hx : |x| < zk 0) :
    (1 - 1 / 10 ^ 5) * (gauss x / (256 * zv)) ≤ density x ∧ density x ≤ (1 + 1 / 10 ^ 5) * (gauss x / (256 * zv)) := by
  obtain ⟨-, -, a1, a2, k1, k2, -, k3, k4, k5, k6⟩ := base_strip
  have v0 : (0 : ℝ) < zv := by unfold zv; norm_num
  have g0 := gauss_pos x
  have x0 : (0 : ℝ) < zx 0 := by exact_mod_cast k3.trans k4
  have v1 : (0 : ℝ) < 256 * (zv * (1 - 1 / 10 ^ 8)) := mul_pos (by norm_num) (mul_pos v0 (by norm_num))
  have v2 : (0 : ℝ) < 256 * (zv * (1 - 5 / 10 ^ 6)) := mul_pos (by norm_num) (mul_pos v0 (by norm_num))
  have f127 : (0 : ℝ) < zf 127 := by exact_mod_cast (strip (i := 127) (by norm_num) (by norm_num)).gap.1
  have lo : (zf 127 : ℝ) * (1 - 3 / 10 ^ 7) ≤ gauss x := by
    have := gauss_lo (q := zk 0) (by rw [abs_of_pos k3]; linarith) k5
    push_cast at this
    refine this.trans (gauss_anti ?_)
    rw [abs_of_pos (by exact_mod_cast k3 : (0 : ℝ) < zk 0)]
    exact hx.le
  have base : density x = 1 / (256 * zx 0) + ∑ i ∈ Finset.range 127, (if |x| ≤ zx (i + 1) then hitR (i + 1) x else 0) / (256 * zx (i + 1)) := by
    unfold density
    rw [Finset.sum_range_succ', add_comm]
    congr 1
    · have : |x| ≤ zx 0 := hx.le.trans (by exact_mod_cast k4.le)
      simp [this, hitR, hx]
    · refine Finset.sum_congr rfl fun i _ => ?_
      split <;> simp
  have term0 : (zf 127 : ℝ) / (256 * (zv * (1 + 1 / 10 ^ 8))) ≤ 1 / (256 * zx 0) ∧ (1 : ℝ) / (256 * zx 0) ≤ zf 127 / (256 * (zv * (1 - 1 / 10 ^ 8))) := by
    have b1 : (zv : ℝ) * (1 - 1 / 10 ^ 8) ≤ zx 0 * zf 127 := by have := toR a1; push_cast at this; exact this
    have b2 : (zx 0 : ℝ) * zf 127 ≤ zv * (1 + 1 / 10 ^ 8) := by have := toR a2; push_cast at this; exact this
    constructor
    · rw [div_le_div_iff₀ (by positivity) (by positivity)]
      nlinarith
    · rw [div_le_div_iff₀ (by positivity) v1]
      nlinarith
  set T : Nat → ℝ := fun i => if |x| ≤ zx (i + 1) then hitR (i + 1) x else 0 with hT
  have T0 : ∀ i ∈ Finset.range 127, 0 ≤ T i := by
    intro i hi
    rw [Finset.mem_range] at hi
    simp only [hT]
    split
    · exact hitR_nonneg (by omega) x
    · exact le_rfl
  have terms : ∀ i ∈ Finset.range 127, T i * (zf i - zf (i + 1)) / (256 * (zv * (1 + 5 / 10 ^ 6))) ≤ T i / (256 * zx (i + 1)) ∧
      T i / (256 * zx (i + 1)) ≤ T i * (zf i - zf (i + 1)) / (256 * (zv * (1 - 5 / 10 ^ 6))) := by
    intro i hi
    have t0 := T0 i hi
    rw [Finset.mem_range] at hi
    have S := strip (i := i + 1) (by omega) (by omega)
    have xp : (0 : ℝ) < zx (i + 1) := by exact_mod_cast S.width.1
    have b1 : (zv : ℝ) * (1 - 5 / 10 ^ 6) ≤ zx (i + 1) * (zf i - zf (i + 1)) := by have := toR S.area1; push_cast at this; exact this
    have b2 : (zx (i + 1) : ℝ) * (zf i - zf (i + 1)) ≤ zv * (1 + 5 / 10 ^ 6) := by have := toR S.area2; push_cast at this; exact this
    constructor
    · rw [div_le_div_iff₀ (by positivity) (by positivity)]
      have := mul_le_mul_of_nonneg_left b2 t0
      nlinarith
    · rw [div_le_div_iff₀ (by positivity) v2]
      have := mul_le_mul_of_nonneg_left b1 t0
      nlinarith
  have sum := taken_sum x
  have exc := abs_le.mp (excess_sum x)
  have s1 := Finset.sum_le_sum fun i hi => (terms i hi).1
  have s2 := Finset.sum_le_sum fun i hi => (terms i hi).2
  rw [← Finset.sum_div] at s1 s2
  rw [sum] at s1 s2
  set E := ∑ i ∈ Finset.range 127, excess (i + 1) x
  have m1 : gauss x ≤ max (gauss x - zf 127) 0 + zf 127 := by
    have := le_max_left (gauss x - zf 127) 0
    linarith
  have m2 : max (gauss x - zf 127) 0 + zf 127 ≤ gauss x * (1 + 4 / 10 ^ 7) := by
    rcases le_total (gauss x) (zf 127) with h | h
    · rw [max_eq_right (by linarith)]
      norm_num at lo ⊢
      linarith
    · rw [max_eq_left (by linarith)]
      norm_num
      linarith
  have p1 : 0 ≤ max (gauss x - zf 127) 0 + E := by
    rw [← sum]
    refine Finset.sum_nonneg fun i hi => mul_nonneg (T0 i hi) ?_
    rw [Finset.mem_range] at hi
    have := zf_lt (i := i + 1) (by omega) (by omega)
    simp only [Nat.add_sub_cancel] at this
    linarith
  rw [base]
  constructor
  · have c1 : (gauss x * (1 - 4 / 10 ^ 7)) / (256 * (zv * (1 + 5 / 10 ^ 6))) ≤ 1 / (256 * zx 0) + ∑ i ∈ Finset.range 127, T i / (256 * zx (i + 1)) := by
      have d1 : (zf 127 : ℝ) / (256 * (zv * (1 + 5 / 10 ^ 6))) ≤ zf 127 / (256 * (zv * (1 + 1 / 10 ^ 8))) := by
        refine div_le_div_of_nonneg_left f127.le (by positivity) ?_
        norm_num
        linarith
      have d2 : (gauss x * (1 - 4 / 10 ^ 7)) / (256 * (zv * (1 + 5 / 10 ^ 6))) ≤ (max (gauss x - zf 127) 0 + E + zf 127) / (256 * (zv * (1 + 5 / 10 ^ 6))) := by
        gcongr
        linarith [exc.1]
      rw [add_div] at d2
      linarith [term0.1]
    refine le_trans ?_ c1
    rw [← mul_div_assoc, div_le_div_iff₀ (by positivity) (by positivity)]
    have : 0 < gauss x * zv := by positivity
    norm_num
    nlinarith
  · have c1 : 1 / (256 * zx 0) + ∑ i ∈ Finset.range 127, T i / (256 * zx (i + 1)) ≤ (gauss x * (1 + 8 / 10 ^ 7)) / (256 * (zv * (1 - 5 / 10 ^ 6))) := by
      have d1 : (zf 127 : ℝ) / (256 * (zv * (1 - 1 / 10 ^ 8))) ≤ zf 127 / (256 * (zv * (1 - 5 / 10 ^ 6))) := by
        refine div_le_div_of_nonneg_left f127.le v2 ?_
        norm_num
        linarith
      have d2 : (max (gauss x - zf 127) 0 + E + zf 127) / (256 * (zv * (1 - 5 / 10 ^ 6))) ≤ (gauss x * (1 + 8 / 10 ^ 7)) / (256 * (zv * (1 - 5 / 10 ^ 6))) := by
        refine div_le_div_of_nonneg_right ?_ v2.le
        linarith [exc.2]
      rw [add_div] at d2
      linarith [term0.2]
    refine le_trans c1 ?_
    rw [← mul_div_assoc, div_le_div_iff₀ v2 (by positivity)]
    have : 0 < gauss x * zv := by positivity
    norm_num
    nlinarith

end Verif.Small

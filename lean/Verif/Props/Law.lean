import Verif.Props.Small
import Verif.Alg.Default
import Mathlib.Data.Fin.Tuple.Basic
import Mathlib.Algebra.BigOperators.Fin
import Mathlib.Data.Fintype.BigOperators
import Mathlib.Data.Fintype.Powerset
import Mathlib.Data.Bool.Count
import Mathlib.Data.Nat.Choose.Sum
import Mathlib.Analysis.Complex.ExponentialBounds

/-! # C88: which points a mutation changes, when the random numbers are uniform and independent

The numbers drawn are multiples of `1 / N`, each equally likely (`N` is any positive number; 2^53 for `rand.Float64`).  Probabilities are counted: a run
draws from a vector of `m` numbers below `N`, all `N ^ m` vectors being equally likely. -/

namespace Verif.Props

open Verif.Tri Verif.Float Verif.Fit Verif.Alg Verif.Small
open Verif.Incr (FloatOps ieee)

/-- The spec's random source: `Float32` and `Float64` give `u 0 / N, u 1 / N, ...` in the order they are called, `NormFloat64` gives `g 0, g 1, ...`. -/
def drawn (N : Nat) (u : Nat → Nat) (g : Nat → ℚ) : Source (Nat × Nat) where
  float32 s := (u s.1 / N, (s.1 + 1, s.2))
  norm s := (g s.2, (s.1, s.2 + 1))
  float64 s := (u s.1 / N, (s.1 + 1, s.2))
  intn k s := (u s.1 % k, (s.1 + 1, s.2))

/-- A vector of draws, continued by zeros. -/
def stream {N m : Nat} (v : Fin m → Fin N) : Nat → Nat := fun i => if h : i < m then v ⟨i, h⟩ else 0

/-- The number of the `N` equally likely values that are below the rate. -/
def hits (N : Nat) (rate : ℚ) : Nat := ((Finset.range N).filter fun k => ((k : Nat) : ℚ) / N < rate).card

/-- The set of the indices reported. -/
def touched (ms : List Mut) : Finset Nat := (ms.map Mut.index).toFinset

/-- Counting vectors of draws with a property. -/
def count (N m : Nat) (P : (Nat → Nat) → Prop) [DecidablePred P] : Nat := (Finset.univ.filter fun v : Fin m → Fin N => P (stream v)).card

theorem stream_cons {N m : Nat} (x : Fin N) (w : Fin m → Fin N) :
    stream (Fin.cons x w : Fin (m + 1) → Fin N) 0 = x ∧ (fun i => stream (Fin.cons x w : Fin (m + 1) → Fin N) (i + 1)) = stream w := by
  refine ⟨?_, ?_⟩
  · simp [stream]
  · funext i
    simp only [stream, Nat.add_lt_add_iff_right]
    split
    · rename_i h
      exact congrArg Fin.val (Fin.cons_succ (α := fun _ => Fin N) x w ⟨i, h⟩)
    · rfl

/-- First number, then the others. -/
theorem count_succ (N m : Nat) (P : (Nat → Nat) → Prop) [DecidablePred P] (Q : Nat → (Nat → Nat) → Prop) [∀ x, DecidablePred (Q x)]
    (h : ∀ u, P u ↔ Q (u 0) fun i => u (i + 1)) : count N (m + 1) P = ∑ x : Fin N, count N m (Q x) := by
  unfold count
  simp only [Finset.card_filter]
  rw [← (Fin.consEquiv fun _ => Fin N).sum_comp, Fintype.sum_prod_type]
  refine Finset.sum_congr rfl fun x _ => Finset.sum_congr rfl fun w _ => ?_
  have e := stream_cons x w
  have : P (stream (Fin.cons x w : Fin (m + 1) → Fin N)) ↔ Q x (stream w) := by rw [h, e.1, e.2]
  exact if_congr this rfl rfl

theorem count_const (N m : Nat) (P : Prop) [Decidable P] : count N m (fun _ => P) = if P then N ^ m else 0 := by
  unfold count
  split
  · rename_i h; simp [h]
  · rename_i h; simp [h]

/-- `d` numbers that are not looked at. -/
theorem count_skip (N m : Nat) (P : (Nat → Nat) → Prop) [DecidablePred P] : ∀ d, count N (m + d) (fun u => P fun i => u (i + d)) = N ^ d * count N m P
  | 0 => by simp
  | d + 1 => by
    rw [← Nat.add_assoc, count_succ N (m + d) _ (fun _ u => P fun i => u (i + d)) (fun u => by simp only [Nat.add_assoc]),
      Finset.sum_const, count_skip N m P d, Finset.card_univ, Fintype.card_fin, smul_eq_mul, pow_succ]
    ring

/-- Which of `n` points are mutated, read off the draws: a number below the rate mutates the point and is followed by `d` other numbers. -/
def pattern (N : Nat) (rate : ℚ) (d : Nat) : Nat → (Nat → Nat) → List Bool
  | 0, _ => []
  | n + 1, u => if (u 0 : ℚ) / N < rate then true :: pattern N rate d n (fun i => u (i + d + 1)) else false :: pattern N rate d n (fun i => u (i + 1))

theorem pattern_length (N : Nat) (rate : ℚ) (d : Nat) : ∀ n u, (pattern N rate d n u).length = n
  | 0, _ => rfl
  | n + 1, u => by unfold pattern; split <;> simp [pattern_length N rate d n]

/-- The law: independent, each point with the same probability. -/
theorem count_pattern (N : Nat) (rate : ℚ) (d : Nat) : ∀ (n m : Nat) (b : List Bool), b.length = n → (d + 1) * n ≤ m →
    count N m (fun u => pattern N rate d n u = b) = hits N rate ^ b.count true * (N - hits N rate) ^ b.count false * N ^ (m - n)
  | 0, m, [], _, _ => by simp [pattern, count_const]
  | n + 1, m, c :: b, hb, hm => by
    have hb' : b.length = n := by simpa using hb
    obtain ⟨m, rfl⟩ : ∃ k, m = k + 1 := by
      have : 0 < (d + 1) * (n + 1) := by positivity
      exact ⟨m - 1, by omega⟩
    have hm' : (d + 1) * n + d ≤ m := by nlinarith
    have hn : n ≤ (d + 1) * n := Nat.le_mul_of_pos_left _ (by omega)
    rw [count_succ N m _ (fun x u => (if (x : ℚ) / N < rate then true :: pattern N rate d n (fun i => u (i + d)) else false :: pattern N rate d n u) = c :: b)
      (fun u => by rw [pattern])]
    have hcard : ((Finset.univ : Finset (Fin N)).filter fun x : Fin N => ((x : Nat) : ℚ) / N < rate).card = hits N rate := by
      unfold hits
      rw [Finset.card_filter, Finset.card_filter, ← Fin.sum_univ_eq_sum_range (fun k => if ((k : Nat) : ℚ) / N < rate then 1 else 0)]
    have hcard' : ((Finset.univ : Finset (Fin N)).filter fun x : Fin N => ¬ ((x : Nat) : ℚ) / N < rate).card = N - hits N rate := by
      have := Finset.card_filter_add_card_filter_not (s := (Finset.univ : Finset (Fin N))) (fun x : Fin N => ((x : Nat) : ℚ) / N < rate)
      rw [hcard, Finset.card_univ, Fintype.card_fin] at this
      omega
    cases c with
    | true =>
      have e : ∀ x : Fin N, count N m (fun u => (if ((x : Nat) : ℚ) / N < rate then true :: pattern N rate d n (fun i => u (i + d))
          else false :: pattern N rate d n u) = true :: b) =
          if ((x : Nat) : ℚ) / N < rate then N ^ d * (hits N rate ^ b.count true * (N - hits N rate) ^ b.count false * N ^ (m - d - n)) else 0 := by
        intro x
        by_cases h : ((x : Nat) : ℚ) / N < rate
        · simp only [h, if_true, List.cons.injEq, true_and]
          obtain ⟨k, rfl⟩ : ∃ k, m = k + d := ⟨m - d, by omega⟩
          rw [count_skip N k (fun u => pattern N rate d n u = b) d, count_pattern N rate d n k b hb' (by omega), Nat.add_sub_cancel]
        · simp only [h, if_false, List.cons.injEq, Bool.false_eq_true, false_and]
          rw [count_const]; simp
      rw [Finset.sum_congr rfl fun x _ => e x, ← Finset.sum_filter, Finset.sum_const, hcard, smul_eq_mul]
      simp only [List.count_cons_self, List.count_cons_of_ne (show true ≠ false by decide)]
      rw [show m + 1 - (n + 1) = d + (m - d - n) by omega, pow_add]
      ring
    | false =>
      have e : ∀ x : Fin N, count N m (fun u => (if ((x : Nat) : ℚ) / N < rate then true :: pattern N rate d n (fun i => u (i + d))
          else false :: pattern N rate d n u) = false :: b) =
          if ¬ ((x : Nat) : ℚ) / N < rate then hits N rate ^ b.count true * (N - hits N rate) ^ b.count false * N ^ (m - n) else 0 := by
        intro x
        by_cases h : ((x : Nat) : ℚ) / N < rate
        · simp only [h, if_true, List.cons.injEq, Bool.true_eq_false, false_and, not_true, if_false]
          rw [count_const]; simp
        · simp only [h, if_false, List.cons.injEq, true_and, not_false_iff, if_true]
          rw [count_pattern N rate d n m b hb' (by omega)]
      rw [Finset.sum_congr rfl fun x _ => e x, ← Finset.sum_filter, Finset.sum_const, hcard', smul_eq_mul]
      simp only [List.count_cons_self, List.count_cons_of_ne (show false ≠ true by decide)]
      rw [show m + 1 - (n + 1) = m - n by omega]
      ring

theorem pattern_of_steps (N : Nat) (rate : ℚ) (d : Nat) (u : Nat → Nat) : ∀ (n : Nat) (t : Nat → Nat),
    (∀ i < n, t (i + 1) = t i + if (u (t i) : ℚ) / N < rate then d + 1 else 1) →
    pattern N rate d n (fun i => u (i + t 0)) = (List.range n).map fun i => decide ((u (t i) : ℚ) / N < rate)
  | 0, _, _ => rfl
  | n + 1, t, h => by
    have ih := pattern_of_steps N rate d u n (fun i => t (i + 1)) (fun i hi => h (i + 1) (by omega))
    have h0 := h 0 (by omega)
    rw [List.range_succ_eq_map, List.map_cons, List.map_map, pattern]
    simp only [Nat.zero_add] at h0 ih ⊢
    have ih' : pattern N rate d n (fun i => u (i + t 1)) = List.map ((fun i => decide ((u (t i) : ℚ) / N < rate)) ∘ Nat.succ) (List.range n) := ih
    split
    · rename_i hu
      rw [if_pos hu] at h0
      rw [← ih', h0, decide_eq_true hu]
      congr 2
      funext i; congr 1; omega
    · rename_i hu
      rw [if_neg hu] at h0
      rw [← ih', h0, decide_eq_false hu]
      congr 2
      funext i; congr 1; omega

/-- From the pattern to the set of indices reported. -/
theorem touched_iff {n : Nat} {ms : List Mut} {p : Nat → Bool} (h : ∀ i, i ∈ touched ms ↔ i < n ∧ p i = true) {S : Finset Nat} (hS : S ⊆ Finset.range n) :
    touched ms = S ↔ (List.range n).map p = (List.range n).map fun i => decide (i ∈ S) := by
  rw [List.map_inj_left]
  constructor
  · rintro rfl i hi
    have hi' := List.mem_range.mp hi
    rw [Bool.eq_iff_iff, decide_eq_true_iff, h]
    exact ⟨fun hp => ⟨hi', hp⟩, fun hp => hp.2⟩
  · intro e
    ext i
    rw [h]
    constructor
    · rintro ⟨hi, hp⟩
      rw [e i (List.mem_range.mpr hi)] at hp
      exact of_decide_eq_true hp
    · intro hi
      have hi' := Finset.mem_range.mp (hS hi)
      exact ⟨hi', by rw [e i (List.mem_range.mpr hi')]; exact decide_eq_true hi⟩

theorem gaussian_steps (N : Nat) (u : Nat → Nat) (g : Nat → ℚ) (fl : ℚ → ℚ) (rate amount : ℚ) (ps : List NP) :
    ∃ t : Nat → Nat, t 0 = 0 ∧ (∀ i < ps.length, t (i + 1) = t i + if (u (t i) : ℚ) / N < rate then 0 + 1 else 1) ∧
      ∀ i, i ∈ touched (gaussian (drawn N u g) fl rate amount (0, 0) ps).2.1 ↔ i < ps.length ∧ decide ((u (t i) : ℚ) / N < rate) = true := by
  obtain ⟨t, t0, -, ht⟩ := c50_gaussian_draws (drawn N u g) fl rate amount (0, 0) ps
  have hR := c50_gaussian (drawn N u g) fl rate amount (0, 0) ps
  refine ⟨fun i => (t i).1, congrArg Prod.fst t0, fun i hi => ?_, fun i => ?_⟩
  · have hp : ps[i]? = some ps[i] := List.getElem?_eq_getElem hi
    split
    · rename_i h; exact congrArg Prod.fst ((ht i _ hp).1 h).1
    · rename_i h; exact congrArg Prod.fst ((ht i _ hp).2 (not_lt.mp h)).1
  · simp only [touched, List.mem_toFinset, List.mem_map, decide_eq_true_iff]
    constructor
    · rintro ⟨m, hm, rfl⟩
      have hl := (List.getElem?_eq_some_iff.mp (hR.values m hm).1).1
      refine ⟨hl, ?_⟩
      by_contra h
      exact ((ht m.index _ (List.getElem?_eq_getElem hl)).2 (not_lt.mp h)).2 m hm rfl
    · rintro ⟨hl, h⟩
      obtain ⟨-, m, hm, hmi, -⟩ := (ht i _ (List.getElem?_eq_getElem hl)).1 h
      exact ⟨m, hm, hmi⟩

theorem random_steps (N : Nat) (u : Nat → Nat) (g : Nat → ℚ) (fl : ℚ → ℚ) (rate amount : ℚ) (ps : List NP) :
    ∃ t : Nat → Nat, t 0 = 0 ∧ (∀ i < ps.length, t (i + 1) = t i + if (u (t i) : ℚ) / N < rate then 2 + 1 else 1) ∧
      ∀ i, i ∈ touched (randomMut (drawn N u g) fl rate amount (0, 0) ps).2.1 ↔ i < ps.length ∧ decide ((u (t i) : ℚ) / N < rate) = true := by
  obtain ⟨t, t0, -, ht⟩ := c50_random_draws (drawn N u g) fl rate amount (0, 0) ps
  have hR := c50_random (drawn N u g) fl rate amount (0, 0) ps
  refine ⟨fun i => (t i).1, congrArg Prod.fst t0, fun i hi => ?_, fun i => ?_⟩
  · have hp : ps[i]? = some ps[i] := List.getElem?_eq_getElem hi
    split
    · rename_i h; exact congrArg Prod.fst ((ht i _ hp).1 h).1
    · rename_i h; exact congrArg Prod.fst ((ht i _ hp).2 (not_lt.mp h)).1
  · simp only [touched, List.mem_toFinset, List.mem_map, decide_eq_true_iff]
    constructor
    · rintro ⟨m, hm, rfl⟩
      have hl := (List.getElem?_eq_some_iff.mp (hR.values m hm).1).1
      refine ⟨hl, ?_⟩
      by_contra h
      exact ((ht m.index _ (List.getElem?_eq_getElem hl)).2 (not_lt.mp h)).2 m hm rfl
    · rintro ⟨hl, h⟩
      obtain ⟨-, m, hm, hmi, -⟩ := (ht i _ (List.getElem?_eq_getElem hl)).1 h
      exact ⟨m, hm, hmi⟩

theorem count_mem {n : Nat} {S : Finset Nat} (hS : S ⊆ Finset.range n) :
    ((List.range n).map fun i => decide (i ∈ S)).count true = S.card ∧ ((List.range n).map fun i => decide (i ∈ S)).count false = n - S.card := by
  have h1 : ((List.range n).map fun i => decide (i ∈ S)).count true = S.card := by
    have e : (Finset.range n).filter (fun i => i ∈ S) = S := by
      ext i
      rw [Finset.mem_filter]
      exact ⟨fun h => h.2, fun h => ⟨hS h, h⟩⟩
    conv_rhs => rw [← e]
    rw [List.count, List.countP_map, List.countP_eq_length_filter]
    show _ = ((List.range n).filter fun i => decide (i ∈ S)).length
    congr 1
    refine List.filter_congr fun i _ => ?_
    simp
  refine ⟨h1, ?_⟩
  have := List.count_add_count_not ((List.range n).map fun i => decide (i ∈ S)) true
  rw [List.length_map, List.length_range, h1] at this
  simp only [Bool.not_true] at this
  omega

/-- The law for any run that follows the draws. -/
theorem law_of_steps (N : Nat) (rate : ℚ) (d n m : Nat) (hm : (d + 1) * n ≤ m) (ms : (Nat → Nat) → List Mut)
    (h : ∀ u, ∃ t : Nat → Nat, t 0 = 0 ∧ (∀ i < n, t (i + 1) = t i + if (u (t i) : ℚ) / N < rate then d + 1 else 1) ∧
      ∀ i, i ∈ touched (ms u) ↔ i < n ∧ decide ((u (t i) : ℚ) / N < rate) = true) {S : Finset Nat} (hS : S ⊆ Finset.range n) :
    count N m (fun u => touched (ms u) = S) = hits N rate ^ S.card * (N - hits N rate) ^ (n - S.card) * N ^ (m - n) := by
  have e : ∀ u, touched (ms u) = S ↔ pattern N rate d n u = (List.range n).map fun i => decide (i ∈ S) := by
    intro u
    obtain ⟨t, t0, ht, hi⟩ := h u
    have := pattern_of_steps N rate d u n t ht
    rw [t0] at this
    rw [touched_iff hi hS, ← this]
    rfl
  have e' : count N m (fun u => touched (ms u) = S) = count N m (fun u => pattern N rate d n u = (List.range n).map fun i => decide (i ∈ S)) := by
    unfold count
    congr 1
    exact Finset.filter_congr fun v _ => e _
  rw [e', count_pattern N rate d n m _ (by simp) hm, (count_mem hS).1, (count_mem hS).2]

theorem touched_subset {n : Nat} {ms : List Mut} {p : Nat → Prop} (h : ∀ i, i ∈ touched ms ↔ i < n ∧ p i) : touched ms ⊆ Finset.range n :=
  fun i hi => Finset.mem_range.mpr ((h i).mp hi).1

/-- **C88**, gaussian method: for every set `S` of points, the probability that exactly the points of `S` are mutated is `p ^ |S| * (1 - p) ^ (n - |S|)`
with `p = hits / N`: the points are mutated independently of each other and of the gaussian numbers, each with probability `p`. -/
theorem c88_gaussian (N : Nat) (g : Nat → ℚ) (fl : ℚ → ℚ) (rate amount : ℚ) (ps : List NP) {S : Finset Nat} (hS : S ⊆ Finset.range ps.length) :
    count N ps.length (fun u => touched (gaussian (drawn N u g) fl rate amount (0, 0) ps).2.1 = S) =
      hits N rate ^ S.card * (N - hits N rate) ^ (ps.length - S.card) := by
  rw [law_of_steps N rate 0 ps.length ps.length (by omega) _ (fun u => gaussian_steps N u g fl rate amount ps) hS]
  simp

/-- **C88**, random method.  It draws from one sequence, one number for a point that stays and three for a point that is mutated; the law is the same. -/
theorem c88_random (N : Nat) (g : Nat → ℚ) (fl : ℚ → ℚ) (rate amount : ℚ) (ps : List NP) {S : Finset Nat} (hS : S ⊆ Finset.range ps.length) :
    count N (3 * ps.length) (fun u => touched (randomMut (drawn N u g) fl rate amount (0, 0) ps).2.1 = S) =
      hits N rate ^ S.card * (N - hits N rate) ^ (ps.length - S.card) * N ^ (2 * ps.length) := by
  rw [law_of_steps N rate 2 ps.length (3 * ps.length) (by omega) _ (fun u => random_steps N u g fl rate amount ps) hS]
  congr 2
  omega

theorem hits_eq {N : Nat} (hN : 0 < N) (rate : ℚ) : hits N rate = min N ⌈rate * N⌉₊ := by
  unfold hits
  have : (Finset.range N).filter (fun k => ((k : Nat) : ℚ) / N < rate) = Finset.range (min N ⌈rate * N⌉₊) := by
    ext k
    rw [Finset.mem_filter, Finset.mem_range, Finset.mem_range, lt_min_iff, Nat.lt_ceil, div_lt_iff₀ (by exact_mod_cast hN)]
  rw [this, Finset.card_range]

/-- **C88**, the probability of one point: `p` is the rate, rounded up to a multiple of `1 / N` and cut to [0, 1]. -/
theorem c88_hits {N : Nat} (hN : 0 < N) (rate : ℚ) :
    hits N rate ≤ N ∧ (rate ≤ 0 → hits N rate = 0) ∧ (1 ≤ rate → hits N rate = N) ∧
    (0 ≤ rate → rate ≤ 1 → rate ≤ (hits N rate : ℚ) / N ∧ (hits N rate : ℚ) / N < rate + 1 / N) := by
  have hN' : (0 : ℚ) < N := by exact_mod_cast hN
  rw [hits_eq hN]
  refine ⟨min_le_left _ _, fun h => ?_, fun h => ?_, fun h0 h1 => ?_⟩
  · rw [Nat.ceil_eq_zero.mpr (mul_nonpos_of_nonpos_of_nonneg h hN'.le), Nat.min_zero]
  · refine min_eq_left ?_
    have : (N : ℚ) ≤ ⌈rate * N⌉₊ := le_trans (by nlinarith) (Nat.le_ceil _)
    exact_mod_cast this
  · have hc : ⌈rate * N⌉₊ ≤ N := Nat.ceil_le.mpr (by nlinarith)
    rw [min_eq_right hc, le_div_iff₀ hN', div_lt_iff₀ hN', add_mul, one_div, inv_mul_cancel₀ hN'.ne']
    exact ⟨Nat.le_ceil _, Nat.ceil_lt_add_one (by positivity)⟩

theorem sum_weights (a b n : Nat) : ∑ S ∈ (Finset.range n).powerset, a ^ S.card * b ^ (n - S.card) * S.card = n * a * (a + b) ^ (n - 1) := by
  rw [Finset.sum_powerset_apply_card (fun k => a ^ k * b ^ (n - k) * k), Finset.card_range]
  cases n with
  | zero => simp
  | succ n =>
    rw [Finset.sum_range_succ', add_pow, Finset.mul_sum, Nat.add_sub_cancel]
    simp only [mul_zero, smul_eq_mul, add_zero]
    refine Finset.sum_congr rfl fun k hk => ?_
    have hk' : k ≤ n := by have := Finset.mem_range.mp hk; omega
    have e : n + 1 - (k + 1) = n - k := by omega
    have := Nat.add_one_mul_choose_eq n k
    rw [e, pow_succ]
    calc (n + 1).choose (k + 1) * (a ^ k * a * b ^ (n - k) * (k + 1)) = ((n + 1).choose (k + 1) * (k + 1)) * (a ^ k * a * b ^ (n - k)) := by ring
      _ = _ := by rw [← this]; push_cast; ring

/-- The sum, over all vectors of draws, of a function of the set of the mutated points. -/
theorem sum_of_steps (N : Nat) (rate : ℚ) (d n m : Nat) (hm : (d + 1) * n ≤ m) (ms : (Nat → Nat) → List Mut)
    (h : ∀ u, ∃ t : Nat → Nat, t 0 = 0 ∧ (∀ i < n, t (i + 1) = t i + if (u (t i) : ℚ) / N < rate then d + 1 else 1) ∧
      ∀ i, i ∈ touched (ms u) ↔ i < n ∧ decide ((u (t i) : ℚ) / N < rate) = true) (f : Finset Nat → Nat) :
    ∑ v : Fin m → Fin N, f (touched (ms (stream v))) =
      ∑ S ∈ (Finset.range n).powerset, hits N rate ^ S.card * (N - hits N rate) ^ (n - S.card) * N ^ (m - n) * f S := by
  rw [← Finset.sum_fiberwise_of_maps_to (s := Finset.univ) (t := (Finset.range n).powerset) (g := fun v : Fin m → Fin N => touched (ms (stream v)))
    (fun v _ => by obtain ⟨t, -, -, hi⟩ := h (stream v); exact Finset.mem_powerset.mpr (touched_subset hi))]
  refine Finset.sum_congr rfl fun S hS => ?_
  rw [Finset.sum_congr rfl (g := fun _ => f S) (fun v hv => by rw [(Finset.mem_filter.mp hv).2]), Finset.sum_const, smul_eq_mul,
    ← law_of_steps N rate d n m hm ms h (Finset.mem_powerset.mp hS)]
  rfl

/-- **C88**, the mean number of points mutated: `n * p`.  Both methods; the sum is over all vectors of draws. -/
theorem c88_mean (N : Nat) (g : Nat → ℚ) (fl : ℚ → ℚ) (rate amount : ℚ) (ps : List NP) (hN : 0 < N) :
    ∑ v : Fin ps.length → Fin N, (touched (gaussian (drawn N (stream v) g) fl rate amount (0, 0) ps).2.1).card =
      ps.length * hits N rate * N ^ (ps.length - 1) ∧
    ∑ v : Fin (3 * ps.length) → Fin N, (touched (randomMut (drawn N (stream v) g) fl rate amount (0, 0) ps).2.1).card =
      ps.length * hits N rate * N ^ (3 * ps.length - 1) := by
  have hh : hits N rate + (N - hits N rate) = N := by have := (c88_hits hN rate).1; omega
  constructor
  · rw [sum_of_steps N rate 0 ps.length ps.length (by omega) _ (fun u => gaussian_steps N u g fl rate amount ps) Finset.card]
    simp only [Nat.sub_self, pow_zero, mul_one]
    rw [sum_weights, hh]
  · rw [sum_of_steps N rate 2 ps.length (3 * ps.length) (by omega) _ (fun u => random_steps N u g fl rate amount ps) Finset.card]
    have e : ∀ S : Finset Nat, hits N rate ^ S.card * (N - hits N rate) ^ (ps.length - S.card) * N ^ (3 * ps.length - ps.length) * S.card =
        N ^ (2 * ps.length) * (hits N rate ^ S.card * (N - hits N rate) ^ (ps.length - S.card) * S.card) := by
      intro S
      rw [show 3 * ps.length - ps.length = 2 * ps.length by omega]
      ring
    rw [Finset.sum_congr rfl fun S _ => e S, ← Finset.mul_sum, sum_weights, hh]
    rcases Nat.eq_zero_or_pos ps.length with h0 | h0
    · simp [h0]
    · rw [show 3 * ps.length - 1 = 2 * ps.length + (ps.length - 1) by omega, pow_add]
      ring

/-- **C88**, the number of points mutated is binomial. -/
theorem c88_binomial (N : Nat) (g : Nat → ℚ) (fl : ℚ → ℚ) (rate amount : ℚ) (ps : List NP) (k : Nat) :
    count N ps.length (fun u => (touched (gaussian (drawn N u g) fl rate amount (0, 0) ps).2.1).card = k) =
      ps.length.choose k * (hits N rate ^ k * (N - hits N rate) ^ (ps.length - k)) := by
  unfold count
  rw [Finset.card_filter, sum_of_steps N rate 0 ps.length ps.length (by omega) _ (fun u => gaussian_steps N u g fl rate amount ps)
    (fun S => if S.card = k then 1 else 0)]
  rw [Finset.sum_powerset_apply_card (fun j => hits N rate ^ j * (N - hits N rate) ^ (ps.length - j) * N ^ (ps.length - ps.length) * if j = k then 1 else 0)]
  rw [Finset.card_range, Finset.sum_eq_single k]
  · simp
  · intro b _ hb; simp [hb]
  · intro hk
    have : ps.length < k := by simpa using hk
    rw [Nat.choose_eq_zero_of_lt this]; simp

/-- **C88**, `DefaultGaussianMethod` made for the number of points at hand: the mean number of mutated points is 2, up to the grain of the random numbers;
the probability that nothing is mutated is below 1/7; and for one or two points every point is mutated in every call. -/
theorem c88_default {F : FloatOps} (h32 : Rnd 24 F.r32) {N : Nat} (hN : 0 < N) {n : Nat} (hn : 1 ≤ n) (hn' : n ≤ 2 ^ 24) :
    (n ≤ 2 → hits N (defaultRate F n) = N) ∧
    (3 ≤ n → |(n * hits N (defaultRate F n) : ℚ) / N - 2| ≤ 1 / 2 ^ 23 + n / N ∧ 7 * (N - hits N (defaultRate F n)) ^ n ≤ N ^ n) := by
  have hN' : (0 : ℚ) < N := by exact_mod_cast hN
  have hn0 : (0 : ℚ) < n := by exact_mod_cast hn
  have en : F.r32 (((n : Nat) : Int) : ℚ) = n := by
    rw [Int.cast_natCast]
    exact h32.fix _ ⟨n, 0, by rw [abs_of_nonneg (by positivity)]; exact_mod_cast hn', by simp⟩
  have er : defaultRate F n = F.r32 (2 / n) := by unfold defaultRate; rw [en]
  rw [er]
  have herr := h32.err (2 / n)
  rw [abs_of_pos (show (0 : ℚ) < 2 / n by positivity)] at herr
  obtain ⟨e1, e2⟩ := abs_le.mp herr
  have r1 : F.r32 1 = 1 := h32.fix 1 ⟨1, 0, by norm_num, by norm_num⟩
  constructor
  · intro h2
    refine (c88_hits hN _).2.2.1 ?_
    have : (n : ℚ) ≤ 2 := by exact_mod_cast h2
    rw [← r1]
    exact h32.mono _ _ (by rw [le_div_iff₀ hn0]; linarith)
  · intro h3
    have h3' : (3 : ℚ) ≤ n := by exact_mod_cast h3
    have hr1 : F.r32 (2 / n) ≤ 1 := by
      rw [← r1]
      exact h32.mono _ _ (by rw [div_le_iff₀ hn0]; linarith)
    have hr0 : 0 ≤ F.r32 (2 / n) := by
      have : (0 : ℚ) < 2 / n := by positivity
      have h' : (2 : ℚ) / n / 2 ^ 24 ≤ 2 / n := div_le_self this.le (by norm_num)
      linarith
    obtain ⟨l, r⟩ := (c88_hits hN _).2.2.2 hr0 hr1
    have hle := (c88_hits hN (F.r32 (2 / n))).1
    generalize F.r32 (2 / n) = ρ at *
    generalize hits N ρ = a at *
    have q : (n : ℚ) * (2 / n) = 2 := by field_simp
    have q' : (n : ℚ) * (2 / n / 2 ^ 24) = 1 / 2 ^ 23 := by rw [← mul_div_assoc, q]; norm_num
    have b1 : (n : ℚ) * a / N = n * (a / N) := by ring
    have lo : (2 : ℚ) - 1 / 2 ^ 23 ≤ n * (a / N) := by
      have := mul_le_mul_of_nonneg_left (le_trans e1 (sub_le_sub_right l _)) hn0.le
      rw [mul_neg, mul_sub, q, q'] at this
      linarith
    refine ⟨?_, ?_⟩
    · rw [b1, abs_le]
      have up := mul_le_mul_of_nonneg_left r.le hn0.le
      have up' := mul_le_mul_of_nonneg_left e2 hn0.le
      rw [mul_sub, q, q'] at up'
      rw [mul_add, mul_one_div] at up
      have : (0 : ℚ) ≤ n / N := by positivity
      constructor <;> linarith
    · have key : (7 : ℝ) * (1 - (a : ℝ) / N) ^ n ≤ 1 := by
        have ha : (0 : ℝ) ≤ 1 - (a : ℝ) / N := by
          rw [sub_nonneg, div_le_one (by exact_mod_cast hN)]; exact_mod_cast hle
        have lo' : (2 : ℝ) - 1 / 2 ^ 23 ≤ n * ((a : ℝ) / N) := by
          have := (Rat.cast_le (K := ℝ)).mpr lo
          push_cast at this
          exact this
        have h1 : (1 - (a : ℝ) / N) ^ n ≤ Real.exp (-(n * ((a : ℝ) / N))) := by
          have := pow_le_pow_left₀ ha (by have := Real.add_one_le_exp (-((a : ℝ) / N)); linarith : 1 - (a : ℝ) / N ≤ Real.exp (-((a : ℝ) / N))) n
          rw [← Real.exp_nat_mul] at this
          rwa [mul_neg] at this
        have h2 : Real.exp (-(n * ((a : ℝ) / N))) ≤ Real.exp (-(2 - 1 / 2 ^ 23)) := Real.exp_le_exp.mpr (by linarith)
        have h3 : (7 : ℝ) ≤ Real.exp (2 - 1 / 2 ^ 23) := by
          rw [Real.exp_sub, le_div_iff₀ (Real.exp_pos _)]
          have hs : Real.exp ((1 : ℝ) / 2 ^ 23) ≤ 1.05 := by
            have h := Real.add_one_le_exp (-((1 : ℝ) / 2 ^ 23))
            rw [Real.exp_neg] at h
            have hp := Real.exp_pos ((1 : ℝ) / 2 ^ 23)
            generalize Real.exp ((1 : ℝ) / 2 ^ 23) = z at h hp ⊢
            have := mul_le_mul_of_nonneg_right h hp.le
            rw [inv_mul_cancel₀ hp.ne'] at this
            have h4 : (0.99 : ℝ) ≤ -(1 / 2 ^ 23) + 1 := by norm_num
            nlinarith
          have h2' : (7.389 : ℝ) ≤ Real.exp 2 := by
            have := Real.exp_one_gt_d9
            rw [show (2 : ℝ) = 1 + 1 by norm_num, Real.exp_add]
            nlinarith
          linarith
        have h4 : Real.exp (-(2 - 1 / 2 ^ 23)) ≤ 1 / 7 := by
          rw [Real.exp_neg]
          exact (inv_anti₀ (by norm_num) h3).trans (by norm_num)
        linarith
      have hN'' : (0 : ℝ) < N := by exact_mod_cast hN
      have : (7 : ℝ) * ((N : ℝ) - a) ^ n ≤ (N : ℝ) ^ n := by
        have e : ((N : ℝ) - a) = N * (1 - (a : ℝ) / N) := by field_simp
        rw [e, mul_pow]
        have := mul_le_mul_of_nonneg_left key (pow_nonneg hN''.le n)
        linarith
      rw [← Nat.cast_sub hle] at this
      exact_mod_cast this

/-- Two points, rate 1/4, numbers in eighths: the number of the 64 equally likely draws that mutate the second point only is 6 * 2. -/
example : count 8 2 (fun u => touched (gaussian (drawn 8 u fun _ => 1) id (1 / 4) 1 (0, 0) [⟨0, 0⟩, ⟨1 / 2, 1 / 2⟩]).2.1 = {1}) = 12 := by
  refine (c88_gaussian 8 _ id (1 / 4) 1 [⟨0, 0⟩, ⟨1 / 2, 1 / 2⟩] (S := {1}) (by decide)).trans ?_
  decide +kernel

/-- The same count, by running the model on all 64 draws. -/
example : count 8 2 (fun u => touched (gaussian (drawn 8 u fun _ => 1) id (1 / 4) 1 (0, 0) [⟨0, 0⟩, ⟨1 / 2, 1 / 2⟩]).2.1 = {1}) = 12 := by decide +kernel

/-- The random method with halves: 4 * 4 ^ 2 / 4 of the 64 draws mutate the second of two points only. -/
example : count 2 6 (fun u => touched (randomMut (drawn 2 u fun _ => 1) id (1 / 2) 1 (0, 0) [⟨0, 0⟩, ⟨1 / 2, 1 / 2⟩]).2.1 = {1}) = 16 := by decide +kernel

/-- The rate for 1000 points with 24-bit numbers meets the hypotheses. -/
example : hits (2 ^ 24) (defaultRate ieee 1000) = 33555 := by
  have e : defaultRate ieee 1000 * ((2 ^ 24 : Nat) : ℚ) = 8589935 / 256 := by decide +kernel
  rw [hits_eq (by norm_num), e]
  norm_num [Nat.ceil_eq_iff]

end Verif.Props

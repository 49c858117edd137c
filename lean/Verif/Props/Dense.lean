import Verif.Props.Approx
import Verif.Props.Law

/-! # C104: many random points are dense

As for C88, the numbers drawn are multiples of `1 / N`, each equally likely, and probabilities are counted. -/

namespace Verif.Props

open Verif.Tri Verif.Spec Verif.Float Verif.Raster Verif.Fit Verif.Small Verif.Alg
open Verif.Incr hiding trunc step run Entry

/-! ### Counting -/

/-- The number of vectors of `m` draws with a property; `count` for properties that need not be decidable. -/
noncomputable def ways (N m : Nat) (P : (Nat → Nat) → Prop) : Nat := @count N m P (Classical.decPred P)

theorem ways_eq (N m : Nat) (P : (Nat → Nat) → Prop) [DecidablePred P] : ways N m P = count N m P := by
  unfold ways
  congr

theorem ways_card (N m : Nat) (P : (Nat → Nat) → Prop) : ways N m P = Nat.card {v : Fin m → Fin N // P (stream v)} := by
  classical
  rw [ways_eq, Nat.card_eq_fintype_card, Fintype.card_subtype]
  rfl

theorem ways_succ (N m : Nat) (P : (Nat → Nat) → Prop) (Q : Nat → (Nat → Nat) → Prop)
    (h : ∀ u, P u ↔ Q (u 0) fun i => u (i + 1)) : ways N (m + 1) P = ∑ x : Fin N, ways N m (Q x) :=
  @count_succ N m P (Classical.decPred P) Q (fun x => Classical.decPred (Q x)) h

/-- The property looks at the first `l` numbers only. -/
def Local (l : Nat) (P : (Nat → Nat) → Prop) : Prop := ∀ u u', (∀ i < l, u i = u' i) → (P u ↔ P u')

/-- Disjoint parts of a vector are independent. -/
theorem ways_and (N m : Nat) (Q : (Nat → Nat) → Prop) : ∀ (l : Nat) (P : (Nat → Nat) → Prop), Local l P →
    ways N (l + m) (fun u => P u ∧ Q fun i => u (i + l)) = ways N l P * ways N m Q
  | 0, P, hP => by
    have e : ∀ u, P u ↔ P fun _ => 0 := fun u => hP _ _ (by omega)
    by_cases h : P fun _ => 0
    · have h' : ∀ u, P u := fun u => (e u).mpr h
      rw [Nat.zero_add]
      simp only [ways_card]
      simp [h']
    · have h' : ∀ u, ¬ P u := fun u hu => h ((e u).mp hu)
      simp only [ways_card]
      simp [h']
  | l + 1, P, hP => by
    rw [show l + 1 + m = l + m + 1 by omega,
      ways_succ N (l + m) _ (fun x u => P (fun i => Nat.casesOn i x u) ∧ Q fun i => u (i + l)) (fun u => by
        have : (fun i => Nat.casesOn i (u 0) (fun i => u (i + 1)) : Nat → Nat) = u := by funext i; cases i <;> rfl
        rw [this]
        rfl),
      ways_succ N l P (fun x u => P (fun i => Nat.casesOn i x u)) (fun u => by
        have : (fun i => Nat.casesOn i (u 0) (fun i => u (i + 1)) : Nat → Nat) = u := by funext i; cases i <;> rfl
        rw [this]), Finset.sum_mul]
    refine Finset.sum_congr rfl fun x _ => ?_
    refine ways_and N m Q l _ fun u u' h => hP _ _ fun i hi => ?_
    cases i with
    | zero => rfl
    | succ i => exact h i (by omega)

theorem ways_congr {N m : Nat} {P Q : (Nat → Nat) → Prop} (h : ∀ u, P u ↔ Q u) : ways N m P = ways N m Q := by
  rw [show P = Q from funext fun u => propext (h u)]

/-- Blocks of the same length are independent and alike. -/
theorem ways_blocks (N l : Nat) (P : (Nat → Nat) → Prop) (hP : Local l P) : ∀ m, ways N (l * m) (fun u => ∀ k < m, P fun i => u (i + l * k)) = ways N l P ^ m
  | 0 => by
    simp [ways_card]
  | m + 1 => by
    rw [show l * (m + 1) = l + l * m by ring, pow_succ', ← ways_blocks N l P hP m, ← ways_and N (l * m) (fun u => ∀ k < m, P fun i => u (i + l * k)) l P hP]
    refine ways_congr fun u => ⟨fun h => ⟨by simpa using h 0 (by omega), fun k hk => ?_⟩, fun h k hk => ?_⟩
    · have := h (k + 1) (by omega)
      rw [show (fun i => u (i + l * (k + 1))) = fun i => u (i + l * k + l) by funext i; congr 1; ring] at this
      exact this
    · cases k with
      | zero => simpa using h.1
      | succ k =>
        rw [show (fun i => u (i + l * (k + 1))) = fun i => u (i + l * k + l) by funext i; congr 1; ring]
        exact h.2 k (by omega)

theorem ways_le {N m : Nat} {P Q : (Nat → Nat) → Prop} (hN : 0 < N) (h : ∀ u, (∀ i, u i < N) → P u → Q u) : ways N m P ≤ ways N m Q := by
  classical
  rw [ways_eq, ways_eq]
  unfold count
  refine Finset.card_le_card fun v hv => ?_
  simp only [Finset.mem_filter, Finset.mem_univ, true_and] at hv ⊢
  refine h _ (fun i => ?_) hv
  unfold stream
  split
  · exact Fin.isLt _
  · exact hN

theorem ways_exists {N m M : Nat} : ∀ (a : Nat) (P : Nat → (Nat → Nat) → Prop), (∀ i < a, ways N m (P i) ≤ M) → ways N m (fun u => ∃ i < a, P i u) ≤ a * M
  | 0, P, _ => by
    simp [ways_card]
  | a + 1, P, h => by
    have e : ways N m (fun u => ∃ i < a + 1, P i u) ≤ ways N m (fun u => ∃ i < a, P i u) + ways N m (P a) := by
      classical
      rw [ways_eq, ways_eq, ways_eq]
      unfold count
      rw [← Finset.card_union_add_card_inter]
      refine le_trans (Finset.card_le_card fun v hv => ?_) (Nat.le_add_right _ _)
      simp only [Finset.mem_filter, Finset.mem_univ, true_and, Finset.mem_union] at hv ⊢
      obtain ⟨i, hi, hp⟩ := hv
      rcases Nat.lt_succ_iff_lt_or_eq.mp hi with h | rfl
      · exact Or.inl ⟨i, h, hp⟩
      · exact Or.inr hp
    have := ways_exists a P fun i hi => h i (by omega)
    have := h a (by omega)
    rw [Nat.succ_mul]
    omega

theorem ways_not (N m : Nat) (P : (Nat → Nat) → Prop) : ways N m (fun u => ¬ P u) = N ^ m - ways N m P := by
  classical
  rw [ways_eq, ways_eq]
  unfold count
  have := Finset.card_filter_add_card_filter_not (s := (Finset.univ : Finset (Fin m → Fin N))) fun v => P (stream v)
  rw [Finset.card_univ, Fintype.card_fun, Fintype.card_fin, Fintype.card_fin] at this
  exact Nat.eq_sub_of_add_eq' this

/-- The chance that a number falls into one of `a` equal parts. -/
theorem ways_part {N a i : Nat} (hN : 0 < N) (ha : a ∣ N) (hi : i < a) : ways N 1 (fun u => u 0 * a / N = i) = N / a := by
  obtain ⟨c, rfl⟩ := ha
  have a0 : 0 < a := by omega
  have c0 : 0 < c := Nat.pos_of_mul_pos_left hN
  rw [ways_succ (a * c) 0 _ (fun x _ => x * a / (a * c) = i) (fun u => Iff.rfl), Nat.mul_div_cancel_left _ a0]
  have e : ∀ x : Fin (a * c), ways (a * c) 0 (fun _ => (x : Nat) * a / (a * c) = i) = if (x : Nat) ∈ Finset.Ico (i * c) ((i + 1) * c) then 1 else 0 := by
    intro x
    rw [ways_eq, count_const, pow_zero]
    refine if_congr ?_ rfl rfl
    rw [Nat.mul_comm (x : Nat) a, Nat.mul_div_mul_left _ _ a0, Finset.mem_Ico]
    rw [Nat.div_eq_iff c0, Nat.le_sub_one_iff_lt (by positivity)]
    rw [Nat.succ_mul, and_comm]
  rw [Finset.sum_congr rfl fun x _ => e x, Fin.sum_univ_eq_sum_range (fun x => if x ∈ Finset.Ico (i * c) ((i + 1) * c) then 1 else 0), ← Finset.card_filter]
  have : (Finset.range (a * c)).filter (fun x => x ∈ Finset.Ico (i * c) ((i + 1) * c)) = Finset.Ico (i * c) ((i + 1) * c) := by
    ext x
    simp only [Finset.mem_filter, Finset.mem_range, Finset.mem_Ico, and_iff_right_iff_imp]
    intro h
    have : (i + 1) * c ≤ a * c := Nat.mul_le_mul_right _ hi
    omega
  rw [this, Nat.card_Ico, Nat.succ_mul]
  omega

/-! ### Boxes -/

/-- Of `n` points with coordinates `u 0 / N, u 1 / N`, `u 2 / N, u 3 / N`, ... there is one in each of the boxes when the unit square is cut into `a` columns and `b` rows. -/
def Filled (N a b n : Nat) (u : Nat → Nat) : Prop := ∀ i < a, ∀ j < b, ∃ k < n, u (2 * k) * a / N = i ∧ u (2 * k + 1) * b / N = j

/-- **C104**, `RandomGenerator.Generate(n)`: the number of vectors of draws that leave a box empty.  Divided by `N ^ (2 n)`, the probability is at most `a b (1 - 1 / (a b)) ^ n`. -/
theorem c104_boxes {N a b : Nat} (hN : 0 < N) (ha : a ∣ N) (hb : b ∣ N) (n : Nat) :
    ways N (2 * n) (fun u => ¬ Filled N a b n u) ≤ a * b * (N ^ 2 - N / a * (N / b)) ^ n := by
  have one : ∀ i < a, ∀ j < b, ways N (2 * n) (fun u => ∀ k < n, ¬ (u (2 * k) * a / N = i ∧ u (2 * k + 1) * b / N = j)) = (N ^ 2 - N / a * (N / b)) ^ n := by
    intro i hi j hj
    have e1 : ways N 2 (fun u => u 0 * a / N = i ∧ u 1 * b / N = j) = N / a * (N / b) := by
      rw [← ways_part hN ha hi, ← ways_part hN hb hj, ← ways_and N 1 (fun u => u 0 * b / N = j) 1 (fun u => u 0 * a / N = i) (fun u u' h => by simp only [h 0 (by omega)])]
    have e2 := ways_not N 2 fun u => u 0 * a / N = i ∧ u 1 * b / N = j
    rw [e1] at e2
    rw [← e2, ← ways_blocks N 2 (fun u => ¬ (u 0 * a / N = i ∧ u 1 * b / N = j)) (fun u u' h => by simp only [h 0 (by omega), h 1 (by omega)])]
    refine ways_congr fun u => forall₂_congr fun k _ => ?_
    simp only [Nat.zero_add, Nat.add_comm 1]
  have e : ways N (2 * n) (fun u => ¬ Filled N a b n u) = ways N (2 * n) (fun u => ∃ i < a, ∃ j < b, ∀ k < n, ¬ (u (2 * k) * a / N = i ∧ u (2 * k + 1) * b / N = j)) := by
    refine ways_congr fun u => ?_
    unfold Filled
    push Not
    rfl
  rw [e, Nat.mul_assoc]
  exact ways_exists a _ fun i hi => ways_exists b _ fun j hj => (one i hi j hj).le

/-- The groups of the population are drawn one after the other. -/
theorem randomPoints_drawn (N : Nat) (u : Nat → Nat) (g : Nat → ℚ) (t q : Nat) : ∀ n, randomPoints (drawn N u g) n (t, q) =
    ((List.range n).map fun k => (⟨(u (t + 2 * k) : ℚ) / N, (u (t + 2 * k + 1) : ℚ) / N⟩ : NP), (t + 2 * n, q))
  | 0 => rfl
  | n + 1 => by
    rw [randomPoints, randomPoints_drawn N u g t q n]
    simp [drawn, List.range_succ]
    ring

theorem draw_drawn (N : Nat) (u : Nat → Nat) (g : Nat → ℚ) (n : Nat) : ∀ m, draw (drawn N u g) n m (0, 0) =
    ((List.range m).map fun k => (List.range n).map fun l => (⟨(u (2 * l + 2 * n * k) : ℚ) / N, (u (2 * l + 2 * n * k + 1) : ℚ) / N⟩ : NP), (2 * n * m, 0))
  | 0 => rfl
  | m + 1 => by
    rw [draw, draw_drawn N u g n m]
    simp only [Int.toNat_natCast, randomPoints_drawn, List.range_succ, List.map_append, List.map_cons, List.map_nil, Prod.mk.injEq, List.append_cancel_left_eq, List.cons.injEq, and_true]
    refine ⟨List.map_congr_left fun l _ => ?_, by ring⟩
    rw [Nat.add_comm (2 * n * m)]

/-- The numbers that leave a box empty in each of 400 groups. -/
theorem c104_groups {N a b : Nat} (hN : 0 < N) (ha : a ∣ N) (hb : b ∣ N) (n m : Nat) :
    ways N (2 * n * m) (fun u => ∀ k < m, ¬ Filled N a b n fun i => u (i + 2 * n * k)) ≤ (a * b * (N ^ 2 - N / a * (N / b)) ^ n) ^ m := by
  rw [ways_blocks N (2 * n) (fun u => ¬ Filled N a b n u) (fun u u' h => by
    refine not_congr (forall₂_congr fun i _ => forall₂_congr fun j _ => exists_congr fun k => and_congr_right fun hk => ?_)
    rw [h (2 * k) (by omega), h (2 * k + 1) (by omega)])]
  exact Nat.pow_le_pow_left (c104_boxes hN ha hb n) m

/-! ### The fitness -/

/-- Points in all boxes, moved by little more than half a pixel, are dense. -/
theorem filled_near {N a b n w h : Nat} {u : Nat → Nat} (hN : 0 < N) (ha : 0 < a) (hb : 0 < b) (hw : 0 < w) (hh : 0 < h) {f : Nat → Pt}
    (hf : ∀ k < n, |((f k).x : ℚ) - (u (2 * k) : ℚ) / N * w| ≤ 1 / 2 + 1 / 2 ^ 36 ∧ |((f k).y : ℚ) - (u (2 * k + 1) : ℚ) / N * h| ≤ 1 / 2 + 1 / 2 ^ 36)
    (F : Filled N a b n u) {ρ : ℚ} (hρ : (w / a + 51 / 100) ^ 2 + (h / b + 51 / 100) ^ 2 ≤ ρ ^ 2) (x y : ℝ) (x1 : 0 ≤ x) (x2 : x ≤ w) (y1 : 0 ≤ y) (y2 : y ≤ h) :
    ∃ k < n, (((f k).x : ℝ) - x) ^ 2 + ((f k).y - y) ^ 2 ≤ (ρ : ℝ) ^ 2 := by
  have one : ∀ (a w : Nat) (x : ℝ), 0 < a → 0 < w → 0 ≤ x → x ≤ w → ∃ i < a, (i : ℝ) * w ≤ a * x ∧ a * x ≤ (i + 1) * w := by
    intro a w x ha hw x1 x2
    have hw' : (0 : ℝ) < w := by exact_mod_cast hw
    have ha' : (0 : ℝ) < a := by exact_mod_cast ha
    have q0 : 0 ≤ a * x / w := by positivity
    by_cases c : ⌊a * x / w⌋₊ < a
    · refine ⟨_, c, ?_, ?_⟩
      · have := Nat.floor_le q0
        rwa [le_div_iff₀ hw'] at this
      · have := (Nat.lt_floor_add_one (a * x / w)).le
        rwa [div_le_iff₀ hw'] at this
    · rw [not_lt, Nat.le_floor_iff q0, le_div_iff₀ hw'] at c
      refine ⟨a - 1, by omega, ?_, ?_⟩
      · rw [Nat.cast_sub (by omega)]
        push_cast
        nlinarith
      · rw [Nat.cast_sub (by omega)]
        push_cast
        nlinarith
  have near : ∀ (a w v i : Nat) (x : ℝ) (c : Int), 0 < a → 0 < w → (i : ℝ) * w ≤ a * x → a * x ≤ (i + 1) * w → v * a / N = i → |(c : ℚ) - (v : ℚ) / N * w| ≤ 1 / 2 + 1 / 2 ^ 36 →
      ((c : ℝ) - x) ^ 2 ≤ (((w : ℚ) / a + 51 / 100 : ℚ) : ℝ) ^ 2 := by
    intro a w v i x c ha hw h1 h2 e hc
    have ha' : (0 : ℝ) < a := by exact_mod_cast ha
    have hw' : (0 : ℝ) < w := by exact_mod_cast hw
    have hN' : (0 : ℝ) < N := by exact_mod_cast hN
    rw [Nat.div_eq_iff hN] at e
    have e1 : (i : ℝ) * N ≤ v * a := by
      have : i * N ≤ v * a := by linarith [e.1]
      exact_mod_cast this
    have e2 : (v : ℝ) * a ≤ (i + 1) * N := by
      have : v * a ≤ (i + 1) * N := by
        have := e.2
        rw [Nat.succ_mul]
        have := Nat.sub_le (i * N + N) 1
        linarith
      exact_mod_cast this
    have hc' : |(c : ℝ) - (v : ℝ) / N * w| ≤ 1 / 2 + 1 / 2 ^ 36 := by
      have := (Rat.cast_le (K := ℝ)).mpr hc
      push_cast at this
      exact this
    rw [abs_le] at hc'
    have m1 : (i : ℝ) * w / a ≤ v / N * w := by
      rw [div_mul_eq_mul_div, div_le_div_iff₀ ha' hN']
      nlinarith
    have m2 : (v : ℝ) / N * w ≤ (i + 1) * w / a := by
      rw [div_mul_eq_mul_div, div_le_div_iff₀ hN' ha']
      nlinarith
    have m3 : (i : ℝ) * w / a ≤ x := by rw [div_le_iff₀ ha']; linarith
    have m4 : x ≤ (i + 1) * w / a := by rw [le_div_iff₀ ha']; linarith
    have m5 : ((i : ℝ) + 1) * w / a = i * w / a + w / a := by ring
    push_cast
    have s : |(c : ℝ) - x| ≤ (w : ℝ) / a + 51 / 100 := by
      rw [abs_le]
      norm_num at hc'
      constructor <;> linarith
    rw [← sq_abs]
    exact pow_le_pow_left₀ (abs_nonneg _) s 2
  obtain ⟨i, hi, i1, i2⟩ := one a w x ha hw x1 x2
  obtain ⟨j, hj, j1, j2⟩ := one b h y hb hh y1 y2
  obtain ⟨k, hk, ek, ek'⟩ := F i hi j hj
  refine ⟨k, hk, ?_⟩
  have n1 := near a w _ i x _ ha hw i1 i2 ek (hf k hk).1
  have n2 := near b h _ j y _ hb hh j1 j2 ek' (hf k hk).2
  have := (Rat.cast_le (K := ℝ)).mpr hρ
  push_cast at this n1 n2 ⊢
  linarith

/-- Points in all boxes are dense. -/
theorem filled_net {N a b n w h : Nat} {u : Nat → Nat} (hN : 0 < N) (hu : ∀ i, u i < N) (ha : 0 < a) (hb : 0 < b) (hw : 0 < w) (hw' : w ≤ 32767) (hh : 0 < h) (hh' : h ≤ 32767)
    (F : Filled N a b n u) {ρ : ℚ} (hρ : (w / a + 51 / 100) ^ 2 + (h / b + 51 / 100) ^ 2 ≤ ρ ^ 2) (x y : ℝ) (x1 : 0 ≤ x) (x2 : x ≤ w) (y1 : 0 ≤ y) (y2 : y ≤ h) :
    ∃ k < n, (((createPoint (rne 53) ⟨(u (2 * k) : ℚ) / N, (u (2 * k + 1) : ℚ) / N⟩ w h).x : ℝ) - x) ^ 2 +
      ((createPoint (rne 53) ⟨(u (2 * k) : ℚ) / N, (u (2 * k + 1) : ℚ) / N⟩ w h).y - y) ^ 2 ≤ (ρ : ℝ) ^ 2 := by
  have un : ∀ l, 0 ≤ (u l : ℚ) / N ∧ (u l : ℚ) / N ≤ 1 := fun l => ⟨by positivity, div_le_one_of_le₀ (by exact_mod_cast (hu l).le) (by positivity)⟩
  exact filled_near hN ha hb hw hh (f := fun k => createPoint (rne 53) ⟨(u (2 * k) : ℚ) / N, (u (2 * k + 1) : ℚ) / N⟩ w h)
    (fun k _ => c39_near_partial (rne_rnd (p := 53) (by norm_num)) hw' hh' ⟨(u (2 * k) : ℚ) / N, (u (2 * k + 1) : ℚ) / N⟩ ⟨un _, un _⟩) F hρ x y x1 x2 y1 y2

section
variable {im : Source16} {n : Nat} {srt : Alg.Sorter} {z : ℚ} {bf : D → D → Bufs} {N a b : Nat}

theorem drawn_ok (hN : 0 < N) {u : Nat → Nat} (hu : ∀ i, u i < N) (g : Nat → ℚ) : (drawn N u g).OK := by
  refine ⟨fun s => ⟨by simp only [drawn]; positivity, ?_⟩, fun k s hk => Nat.mod_lt _ hk⟩
  simp only [drawn]
  rw [div_lt_one (by exact_mod_cast hN)]
  exact_mod_cast hu _

/-- **C104**, executions (partial: as C103): if one of the 400 groups of the first generation has a point in every box, the best fitness is high from then on. -/
theorem c104_filled_partial (hN : 0 < N) {u : Nat → Nat} (hu : ∀ i, u i < N) {g : Nat → ℚ} (S : DefaultOK (drawn N u g) im n srt)
    {k : Nat} {A : Algo D Tri} {s : Nat × Nat} (h : DefaultExec ieee srt z bf (drawn N u g) im n (0, 0) k A s) (hwh : im.maxX.toNat * im.maxY.toNat ≤ 6800000) {ρ η : ℚ} (hr : 0 < ρ)
    (hn : 18 * ρ < 3 * (side im.maxX.toNat im.maxY.toNat : ℚ) - 1) (mw : 4 * ρ ≤ (im.maxX.toNat : ℚ)) (G : Gentle (theImage im) (9 * ρ) η)
    (ha : 0 < a) (hb : 0 < b) (hρ : ((im.maxX.toNat : ℚ) / a + 51 / 100) ^ 2 + ((im.maxY.toNat : ℚ) / b + 51 / 100) ^ 2 ≤ ρ ^ 2)
    {m : Nat} (hm : m < 400) (F : Filled N a b n fun i => u (i + 2 * n * m)) :
    (1 - 4 * ρ / im.maxX.toNat) * (1 - 4 * ρ / im.maxY.toNat) - η - 1 / 100000 ≤ A.bestFit := by
  induction h with
  | new h =>
    obtain ⟨gs, e, P⟩ := c101_default_new_partial S h
    rw [draw_drawn] at e
    cases e
    refine c103_default_partial S (DefaultExec.new h) hwh hr hn mw G (P.mem_iff.mpr (List.mem_map.mpr ⟨m, List.mem_range.mpr hm, rfl⟩)) fun x y x1 x2 y1 y2 => ?_
    have k := S.size
    obtain ⟨l, hl, d⟩ := filled_net hN (fun i => hu _) ha hb k.w1 (by have := k.w2; omega) k.h1 (by have := k.h2; omega) F hρ x y x1 x2 y1 y2
    rw [show 2 * l + 1 + 2 * n * m = 2 * l + 2 * n * m + 1 by omega] at d
    exact ⟨_, List.mem_map.mpr ⟨_, List.mem_map.mpr ⟨l, List.mem_range.mpr hl, rfl⟩, rfl⟩, d⟩
  | step h h' ih => exact ih.trans ((c78_default_partial S h).2.2.2.2.2.2.2.2 _ _ _ h')

/-- **C104**, `DefaultAlgorithm` (partial: as C103): cut the image into `a` columns and `b` rows, and let `ρ² ≥ (w / a + 51/100)² + (h / b + 51/100)²`.  Of the vectors of draws for the first
generation, at most `(a b (N² - N² / a b) ^ n) ^ 400` can be continued to a run that reports a best fitness below `(1 - 4 ρ / w) (1 - 4 ρ / h) - η - 1/100000` after any generation: the
probability of such runs is at most `(a b (1 - 1 / a b) ^ n) ^ 400`. -/
theorem c104_default_partial (hN : 0 < N) (da : a ∣ N) (db : b ∣ N) (S : ∀ r : Source (Nat × Nat), r.OK → DefaultOK r im n srt) (hwh : im.maxX.toNat * im.maxY.toNat ≤ 6800000)
    {ρ η : ℚ} (hr : 0 < ρ) (hn : 18 * ρ < 3 * (side im.maxX.toNat im.maxY.toNat : ℚ) - 1) (mw : 4 * ρ ≤ (im.maxX.toNat : ℚ)) (G : Gentle (theImage im) (9 * ρ) η)
    (hρ : ((im.maxX.toNat : ℚ) / a + 51 / 100) ^ 2 + ((im.maxY.toNat : ℚ) / b + 51 / 100) ^ 2 ≤ ρ ^ 2) :
    ways N (2 * n * 400) (fun v => ∃ u g k A s, (∀ i < 2 * n * 400, u i = v i) ∧ (∀ i, u i < N) ∧ DefaultExec ieee srt z bf (drawn N u g) im n (0, 0) k A s ∧
      A.bestFit < (1 - 4 * ρ / im.maxX.toNat) * (1 - 4 * ρ / im.maxY.toNat) - η - 1 / 100000) ≤ (a * b * (N ^ 2 - N / a * (N / b)) ^ n) ^ 400 := by
  refine le_trans (ways_le hN fun v _ => ?_) (c104_groups hN da db n 400)
  rintro ⟨u, g, k, A, s, e, hu, E, lt⟩ m hm F
  refine absurd (c104_filled_partial hN hu (S _ (drawn_ok hN hu g)) E hwh hr hn mw G (Nat.pos_of_dvd_of_pos da hN) (Nat.pos_of_dvd_of_pos db hN) hρ hm ?_) (not_le.mpr lt)
  intro i hi j hj
  obtain ⟨l, hl, h1, h2⟩ := F i hi j hj
  have b1 : 2 * n * m + 2 * n ≤ 2 * n * 400 := by nlinarith
  exact ⟨l, hl, by simpa only [e _ (show 2 * l + 2 * n * m < 2 * n * 400 by omega)] using h1, by simpa only [e _ (show 2 * l + 1 + 2 * n * m < 2 * n * 400 by omega)] using h2⟩

end

/-! ### Cases -/

/-- A grey image of 1000 x 1000 pixels. -/
def greyLarge : Source16 := ⟨1000, 1000, fun _ _ => (40000, 40000, 40000)⟩

theorem greyLarge_gentle (ℓ : ℚ) : Gentle (theImage greyLarge) ℓ 0 := by
  intro x y x' y' a b c d _
  change x < 1000 at a
  change y < 1000 at b
  change x' < 1000 at c
  change y' < 1000 at d
  have k : ∀ x y, x < 1000 → y < 1000 → upperBytes greyLarge x y = (Fin.ofNat 256 156, Fin.ofNat 256 156, Fin.ofNat 256 156) := by
    intro x y hx hy
    unfold upperBytes
    rw [if_pos ⟨by simp only [greyLarge]; omega, by simp only [greyLarge]; omega⟩]
    norm_num [greyLarge]
  unfold rgbDist theImage ofBytes
  simp only [k x y a b, k x' y' c d]
  norm_num

theorem seldom (n m : Nat) (k : 10 * (1024 * 1023 ^ n) ≤ 1024 ^ n) :
    10 ^ m * (2 ^ 5 * 2 ^ 5 * ((2 ^ 53) ^ 2 - 2 ^ 53 / 2 ^ 5 * (2 ^ 53 / 2 ^ 5)) ^ n) ^ m ≤ (2 ^ 53) ^ (2 * n * m) := by
  have e : (2 ^ 53) ^ 2 - 2 ^ 53 / 2 ^ 5 * (2 ^ 53 / 2 ^ 5) = 2 ^ 96 * 1023 := by norm_num
  rw [Nat.pow_mul, Nat.pow_mul, show ((2 : ℕ) ^ 53) ^ 2 - 2 ^ 53 / 2 ^ 5 * (2 ^ 53 / 2 ^ 5) = 2 ^ 96 * 1023 from e, show ((2 : ℕ) ^ 53) ^ 2 = 2 ^ 96 * 1024 by norm_num,
    ← Nat.mul_pow 10 _ m, Nat.mul_pow (2 ^ 96) 1023 n, Nat.mul_pow (2 ^ 96) 1024 n]
  refine Nat.pow_le_pow_left ?_ _
  calc 10 * (2 ^ 5 * 2 ^ 5 * ((2 ^ 96) ^ n * 1023 ^ n)) = (2 ^ 96) ^ n * (10 * (1024 * 1023 ^ n)) := by ring
    _ ≤ _ := Nat.mul_le_mul_left _ k

/-- C104: for 10000 points on this image the probability of a run that ever reports a fitness below 2/3 is at most `10 ^ (-400)`. -/
example : 10 ^ 400 * ways (2 ^ 53) (2 * 10000 * 400) (fun v => ∃ u g k A s, (∀ i < 2 * 10000 * 400, u i = v i) ∧ (∀ i, u i < 2 ^ 53) ∧
    DefaultExec ieee someSorter 0 (fun _ _ => ⟨[], [], fun _ _ => [], fun _ => []⟩) (drawn (2 ^ 53) u g) greyLarge (10000 : Nat) (0, 0) k A s ∧ A.bestFit < 2 / 3) ≤
      (2 ^ 53) ^ (2 * 10000 * 400) := by
  have c := c104_default_partial (im := greyLarge) (n := 10000) (srt := someSorter) (z := 0) (bf := fun _ _ => ⟨[], [], fun _ _ => [], fun _ => []⟩) (N := 2 ^ 53) (a := 2 ^ 5) (b := 2 ^ 5)
    (by positivity) (pow_dvd_pow 2 (by norm_num)) (pow_dvd_pow 2 (by norm_num))
    (fun r hr => ⟨hr, fun _ _ => ⟨by simp [greyLarge], by simp [greyLarge], by simp [greyLarge]⟩, by decide, by decide, by decide, by norm_num, someSorter_ok⟩) (by decide) (ρ := 45) (η := 0)
    (by norm_num) (by change 18 * 45 < 3 * (side 1000 1000 : ℚ) - 1; unfold side; norm_num) (by change 4 * 45 ≤ ((1000 : ℕ) : ℚ); norm_num) (greyLarge_gentle _)
    (by change (((1000 : ℕ) : ℚ) / (2 ^ 5 : ℕ) + 51 / 100) ^ 2 + (((1000 : ℕ) : ℚ) / (2 ^ 5 : ℕ) + 51 / 100) ^ 2 ≤ 45 ^ 2; norm_num)
  have lo : (2 : ℚ) / 3 ≤ (1 - 4 * 45 / greyLarge.maxX.toNat) * (1 - 4 * 45 / greyLarge.maxY.toNat) - 0 - 1 / 100000 := by
    change (2 : ℚ) / 3 ≤ (1 - 4 * 45 / (1000 : ℕ)) * (1 - 4 * 45 / (1000 : ℕ)) - 0 - 1 / 100000
    norm_num
  have c' := le_trans (ways_le (P := fun v => ∃ u g k A s, (∀ i < 2 * 10000 * 400, u i = v i) ∧ (∀ i, u i < 2 ^ 53) ∧
    DefaultExec ieee someSorter 0 (fun _ _ => ⟨[], [], fun _ _ => [], fun _ => []⟩) (drawn (2 ^ 53) u g) greyLarge (10000 : Nat) (0, 0) k A s ∧ A.bestFit < 2 / 3) (by positivity)
    (fun v _ ⟨u, g, k, A, s, e1, e2, e3, e4⟩ => ⟨u, g, k, A, s, e1, e2, e3, e4.trans_le lo⟩)) c
  have k : 10 * (1024 * 1023 ^ 10000) ≤ 1024 ^ 10000 := by decide +kernel
  exact le_trans (Nat.mul_le_mul_left _ c') (seldom 10000 400 k)

end Verif.Props

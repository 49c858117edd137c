import Verif.Raster.Model
import Mathlib.Tactic.Linarith
import Mathlib.Tactic.Ring
import Mathlib.Tactic.Positivity
import Mathlib.Data.List.Count
import Mathlib.Data.List.Perm.Basic

/-!
# Counting how often the rasterizers visit a pixel
-/

namespace Verif.Raster

open Verif.Incr

theorem mem_rows {lo hi i : Int} : i ∈ rows lo hi ↔ lo ≤ i ∧ i < hi := by
  unfold rows
  rw [List.mem_map]
  constructor
  · rintro ⟨j, hj, rfl⟩
    rw [List.mem_range] at hj
    omega
  · intro ⟨h1, h2⟩
    exact ⟨(i - lo).toNat, List.mem_range.mpr (by omega), by omega⟩

theorem rows_nodup (lo hi : Int) : (rows lo hi).Nodup := by
  unfold rows
  refine List.Nodup.map ?_ List.nodup_range
  intro a b h
  simp only at h
  omega

/-- Indicator of `L <= x < R`. -/
def span (L R x : Int) : Nat := if L ≤ x ∧ x < R then 1 else 0

/-- Number of times a call visits the pixel. -/
def Ev.cov (bs : Nat) (x y : Int) : Ev → Nat
  | .line x0 x1 y' => if y = y' then span x0 x1 x else 0
  | .block x' y' => if y' ≤ y ∧ y < y' + bs then span x' (x' + bs) x else 0

theorem count_rows (lo hi i : Int) : (rows lo hi).count i = span lo hi i := by
  unfold span
  split
  · rename_i h
    exact List.count_eq_one_of_mem (rows_nodup lo hi) (mem_rows.mpr h)
  · rename_i h
    exact List.count_eq_zero.mpr (fun hm => h (mem_rows.mp hm))

theorem count_row (l : List Int) (x y y' : Int) :
    (l.map (fun x => (x, y'))).count (x, y) = if y = y' then l.count x else 0 := by
  split
  · rename_i h
    subst h
    exact List.count_map_of_injective l (fun x => (x, y)) (fun a b h => by simpa using h) x
  · rename_i h
    refine List.count_eq_zero.mpr ?_
    rw [List.mem_map]
    rintro ⟨a, -, ha⟩
    simp only [Prod.mk.injEq] at ha
    exact h ha.2.symm

theorem sum_ite_eq (l : List Int) (hl : l.Nodup) (y : Int) (n : Nat) :
    (l.map (fun y' => if y = y' then n else 0)).sum = if y ∈ l then n else 0 := by
  induction l with
  | nil => simp
  | cons a l ih =>
    rw [List.nodup_cons] at hl
    rw [List.map_cons, List.sum_cons, ih hl.2]
    by_cases h : y = a
    · subst h; simp [hl.1]
    · simp [h]

theorem count_pixels (bs : Nat) (x y : Int) (e : Ev) : (e.pixels bs).count (x, y) = e.cov bs x y := by
  cases e with
  | line x0 x1 y' =>
    simp only [Ev.pixels, Ev.cov]
    rw [count_row, count_rows]
  | block x' y' =>
    simp only [Ev.pixels, Ev.cov]
    rw [List.count_flatMap]
    have : (List.count (x, y) ∘ fun y' => List.map (fun x' => (x', y')) (rows x' (x' + bs))) =
        fun y' => if y = y' then span x' (x' + bs) x else 0 := by
      funext y''
      simp only [Function.comp]
      rw [count_row, count_rows]
    rw [this, sum_ite_eq _ (rows_nodup _ _)]
    simp only [mem_rows]

/-- Number of visits by a list of calls. -/
def visits (bs : Nat) (x y : Int) (es : List Ev) : Nat := (es.map (Ev.cov bs x y)).sum

theorem visits_append (bs : Nat) (x y : Int) (es fs : List Ev) :
    visits bs x y (es ++ fs) = visits bs x y es + visits bs x y fs := by
  unfold visits; rw [List.map_append, List.sum_append]

theorem count_visits (bs : Nat) (x y : Int) (es : List Ev) :
    (es.flatMap (Ev.pixels bs)).count (x, y) = visits bs x y es := by
  unfold visits
  rw [List.count_flatMap]
  congr 2
  funext e
  exact count_pixels bs x y e

/-- Visits by a list of lines, one per row. -/
theorem visits_lines (bs : Nat) (x y : Int) (rs : List Int) (hr : rs.Nodup) (a b : Int → Int) :
    visits bs x y (rs.map fun r => Ev.line (a r) (b r) r) = if y ∈ rs then span (a y) (b y) x else 0 := by
  unfold visits
  rw [List.map_map, ← sum_ite_eq rs hr y]
  congr 1
  refine List.map_congr_left ?_
  intro r _
  simp only [Function.comp, Ev.cov]
  split
  · rename_i h; rw [h]
  · rfl

/-! ### Truncation -/

theorem trunc_mono {a b : ℚ} (h : a ≤ b) : trunc a ≤ trunc b := by
  unfold trunc
  split
  · rw [if_pos (by linarith)]; exact Int.floor_le_floor h
  · rename_i ha
    split
    · rename_i hb
      have h1 : ⌈a⌉ ≤ 0 := Int.ceil_le.mpr (by push_cast; linarith)
      have h2 : 0 ≤ ⌊b⌋ := Int.le_floor.mpr (by push_cast; linarith)
      omega
    · exact Int.ceil_le_ceil h

theorem le_trunc {n : Int} {q : ℚ} (h : (n : ℚ) ≤ q) : n ≤ trunc q := by
  unfold trunc
  split
  · exact Int.le_floor.mpr h
  · have : (n : ℚ) ≤ ⌈q⌉ := h.trans (Int.le_ceil q)
    exact_mod_cast this

theorem trunc_gt (q : ℚ) : q - 1 < trunc q := by
  unfold trunc
  split
  · have := Int.lt_floor_add_one q; linarith
  · have := Int.le_ceil q; linarith

theorem trunc_int (n : Int) : trunc n = n := by
  unfold trunc; split <;> simp

/-! ### One group of rows -/

theorem blockRun_spec (bs : Nat) (hb : 0 < bs) (minX : ℚ) (y' : Int) : ∀ (n : Nat) (x0 : Int) (x y : Int),
    x0 ≤ (blockRun bs minX y' n x0).2 ∧
    (((x0 : Int) : ℚ) ≤ minX → (((blockRun bs minX y' n x0).2 : Int) : ℚ) ≤ minX) ∧
    visits bs x y (blockRun bs minX y' n x0).1 =
      if y' ≤ y ∧ y < y' + bs then span x0 (blockRun bs minX y' n x0).2 x else 0 := by
  intro n
  induction n with
  | zero =>
    intro x0 x y
    simp only [blockRun, le_refl, true_and]
    refine ⟨fun h => h, ?_⟩
    unfold visits span
    have : ¬ (x0 ≤ x ∧ x < x0) := by omega
    simp [this]
  | succ n ih =>
    intro x0 x y
    simp only [blockRun]
    by_cases h : ((x0 + bs : Int) : ℚ) < minX
    · rw [if_pos h]
      obtain ⟨i1, i2, i3⟩ := ih (x0 + bs) x y
      refine ⟨by simp only; omega, fun _ => i2 h.le, ?_⟩
      simp only
      have : visits bs x y (Ev.block x0 y' :: (blockRun bs minX y' n (x0 + bs)).1) =
          Ev.cov bs x y (Ev.block x0 y') + visits bs x y (blockRun bs minX y' n (x0 + bs)).1 := rfl
      rw [this, i3]
      simp only [Ev.cov]
      split
      · unfold span
        split_ifs <;> omega
      · rfl
    · rw [if_neg h]
      refine ⟨le_refl _, fun h => h, ?_⟩
      simp only
      unfold visits span
      have : ¬ (x0 ≤ x ∧ x < x0) := by omega
      simp [this]

/-- A group visits exactly the pixels between the two edges of its rows. -/
theorem group_spec {L R : Int → ℚ} {bs : Nat} (hb : 0 < bs) {rs : List Int} {i top yb : Int} {es : List Ev}
    (h : group L R bs rs i top yb = some es) (hn : rs.Nodup) (hr : ∀ r, r ∈ rs ↔ yb ≤ r ∧ r < yb + bs)
    (hL : ∀ r ∈ rs, L r ≤ max (L i) (L top)) (hR : ∀ r ∈ rs, min (R i) (R top) ≤ R r) (x y : Int) :
    visits bs x y es = if y ∈ rs then span (trunc (L y)) (trunc (R y)) x else 0 := by
  unfold group at h
  simp only at h
  split at h
  · cases h
  · rename_i hc
    simp only [Option.some.injEq] at h
    generalize hM : max (L i) (L top) = M at *
    generalize hm : min (R i) (R top) = m at *
    obtain ⟨b1, b2, b3⟩ := blockRun_spec bs hb m yb (⌈m⌉ - trunc M).toNat (trunc M) x y
    generalize blockRun bs m yb (⌈m⌉ - trunc M).toNat (trunc M) = B at *
    rw [← h, visits_append, visits_append, visits_lines _ _ _ _ hn (fun r => trunc (L r)) (fun _ => trunc M),
      visits_lines _ _ _ _ hn (fun _ => B.2) (fun r => trunc (R r)), b3]
    by_cases hy : y ∈ rs
    · rw [if_pos hy, if_pos hy, if_pos hy, if_pos ((hr y).mp hy)]
      have l1 : trunc (L y) ≤ trunc M := trunc_mono (hL y hy)
      have l2 : B.2 ≤ trunc (R y) := by
        refine le_trans (le_trunc (b2 ?_)) (trunc_mono (hR y hy))
        push_cast at hc
        have : (0 : ℚ) ≤ bs := by positivity
        linarith
      unfold span
      split_ifs <;> omega
    · rw [if_neg hy, if_neg hy, if_neg hy, if_neg (fun hh => hy ((hr y).mpr hh))]

theorem range_up (i : Int) (bs : Nat) : ((List.range bs).map fun y : Nat => i - y).Nodup ∧
    ∀ r, r ∈ ((List.range bs).map fun y : Nat => i - (y : Int)) ↔ i - bs + 1 ≤ r ∧ r < i - bs + 1 + bs := by
  constructor
  · refine List.Nodup.map ?_ List.nodup_range
    intro a b h
    simp only at h
    omega
  · intro r
    rw [List.mem_map]
    constructor
    · rintro ⟨j, hj, rfl⟩
      rw [List.mem_range] at hj
      omega
    · intro ⟨h1, h2⟩
      exact ⟨(i - r).toNat, List.mem_range.mpr (by omega), by omega⟩

theorem range_down (i : Int) (bs : Nat) : ((List.range bs).map fun y : Nat => i + y).Nodup ∧
    ∀ r, r ∈ ((List.range bs).map fun y : Nat => i + (y : Int)) ↔ i ≤ r ∧ r < i + bs := by
  constructor
  · refine List.Nodup.map ?_ List.nodup_range
    intro a b h
    simp only at h
    omega
  · intro r
    rw [List.mem_map]
    constructor
    · rintro ⟨j, hj, rfl⟩
      rw [List.mem_range] at hj
      omega
    · intro ⟨h1, h2⟩
      exact ⟨(r - i).toNat, List.mem_range.mpr (by omega), by omega⟩

/-- `f` is monotone or antitone. -/
def Mono (f : Int → ℚ) : Prop := (∀ a b, a ≤ b → f a ≤ f b) ∨ (∀ a b, a ≤ b → f b ≤ f a)

theorem Mono.le_max {f : Int → ℚ} (h : Mono f) {a b r : Int} (h1 : a ≤ r) (h2 : r ≤ b) : f r ≤ max (f b) (f a) := by
  rcases h with h | h
  · exact le_max_of_le_left (h _ _ h2)
  · exact le_max_of_le_right (h _ _ h1)

theorem Mono.min_le {f : Int → ℚ} (h : Mono f) {a b r : Int} (h1 : a ≤ r) (h2 : r ≤ b) : min (f b) (f a) ≤ f r := by
  rcases h with h | h
  · exact min_le_of_right_le (h _ _ h1)
  · exact min_le_of_left_le (h _ _ h2)

theorem madd_mono {fl : ℚ → ℚ} (hm : Monotone fl) (m : ℚ) (c : Int) (b : Int) : Mono (fun i => madd fl m (i - c) b) := by
  rcases le_total 0 m with h | h
  · left
    intro x y hxy
    have : ((x - c : Int) : ℚ) ≤ ((y - c : Int) : ℚ) := by exact_mod_cast (by omega : x - c ≤ y - c)
    have := hm (mul_le_mul_of_nonneg_left this h)
    exact hm (by linarith)
  · right
    intro x y hxy
    have : ((x - c : Int) : ℚ) ≤ ((y - c : Int) : ℚ) := by exact_mod_cast (by omega : x - c ≤ y - c)
    have := hm (mul_le_mul_of_nonpos_left this h)
    exact hm (by linarith)

/-- Single rows. -/
theorem upLines_spec {L R : Int → ℚ} {bs : Nat} (y2 : Int) (x y : Int) (i : Int) : visits bs x y (upLines L R y2 i) =
      if y2 < y ∧ y ≤ i then span (trunc (L y)) (trunc (R y)) x else 0 := by
  unfold upLines
  rw [visits_lines _ _ _ _ (List.nodup_reverse.mpr (rows_nodup _ _)) (fun r => trunc (L r)) (fun r => trunc (R r))]
  simp only [List.mem_reverse, mem_rows]
  have : (y2 + 1 ≤ y ∧ y < i + 1) ↔ (y2 < y ∧ y ≤ i) := by omega
  simp only [this]

theorem downLines_spec {L R : Int → ℚ} {bs : Nat} (y0 : Int) (x y : Int) (i : Int) :
    visits bs x y (downLines L R y0 i) =
      if i ≤ y ∧ y < y0 then span (trunc (L y)) (trunc (R y)) x else 0 := by
  unfold downLines
  rw [visits_lines _ _ _ _ (rows_nodup _ _) (fun r => trunc (L r)) (fun r => trunc (R r))]
  simp only [mem_rows]

/-- Groups upwards, followed by single rows. -/
theorem up_spec {L R : Int → ℚ} {bs : Nat} (hb : 0 < bs) (hL : Mono L) (hR : Mono R) (y2 : Int)
    (hv : ∀ r, r ≤ y2 → R r ≤ L r) (x y : Int) (n : Nat) : ∀ (i : Int), i - y2 ≤ n →
    visits bs x y ((upLoop L R bs y2 n i).1 ++ upLines L R y2 (upLoop L R bs y2 n i).2) =
      if y2 < y ∧ y ≤ i then span (trunc (L y)) (trunc (R y)) x else 0 := by
  induction n with
  | zero =>
    intro i hi
    simp only [upLoop, List.nil_append]
    exact upLines_spec y2 x y i
  | succ n ih =>
    intro i hi
    simp only [upLoop]
    by_cases h : i > y2
    · rw [if_pos h]
      cases hg : group L R bs ((List.range bs).map fun y : Nat => i - (y : Int)) i (i - bs + 1) (i - bs + 1) with
      | none => simp only [Option.elim_none, List.nil_append]; exact upLines_spec y2 x y i
      | some es =>
        simp only [Option.elim_some]
        obtain ⟨r1, r2⟩ := range_up i bs
        have hs := group_spec hb hg r1 r2
          (fun r hr => by
            have := (r2 r).mp hr
            exact hL.le_max (by omega) (by omega))
          (fun r hr => by
            have := (r2 r).mp hr
            exact hR.min_le (by omega) (by omega)) x y
        have htop : y2 < i - bs + 1 := by
          by_contra hn
          unfold group at hg
          simp only at hg
          rw [if_pos] at hg
          · cases hg
          · have h1 := hv (i - bs + 1) (by omega)
            have h2 := trunc_gt (max (L i) (L (i - bs + 1)))
            have h3 : (1 : ℚ) ≤ bs := by exact_mod_cast hb
            have h4 := le_max_right (L i) (L (i - bs + 1))
            have h5 := min_le_right (R i) (R (i - bs + 1))
            push_cast
            linarith
        rw [List.append_assoc, visits_append, hs, ih (i - bs) (by omega)]
        simp only [r2]
        split_ifs <;> first | omega | rfl
    · rw [if_neg h]
      simp only [List.nil_append]
      exact upLines_spec y2 x y i

/-- Groups downwards, followed by single rows. -/
theorem down_spec {L R : Int → ℚ} {bs : Nat} (hb : 0 < bs) (hL : Mono L) (hR : Mono R) (y0 : Int) (x y : Int)
    (n : Nat) : ∀ (i : Int),
    visits bs x y ((downLoop L R bs y0 n i).1 ++ downLines L R y0 (downLoop L R bs y0 n i).2) =
      if i ≤ y ∧ y < y0 then span (trunc (L y)) (trunc (R y)) x else 0 := by
  induction n with
  | zero => intro i; simp only [downLoop, List.nil_append]; exact downLines_spec y0 x y i
  | succ n ih =>
    intro i
    simp only [downLoop]
    by_cases h : i + bs < y0
    · rw [if_pos h]
      cases hg : group L R bs ((List.range bs).map fun y : Nat => i + (y : Int)) i (i + bs - 1) i with
      | none => simp only [Option.elim_none, List.nil_append]; exact downLines_spec y0 x y i
      | some es =>
        simp only [Option.elim_some]
        obtain ⟨r1, r2⟩ := range_down i bs
        have hs := group_spec hb hg r1 r2
          (fun r hr => by
            have := (r2 r).mp hr
            rw [max_comm]
            exact hL.le_max (by omega) (by omega))
          (fun r hr => by
            have := (r2 r).mp hr
            rw [min_comm]
            exact hR.min_le (by omega) (by omega)) x y
        rw [List.append_assoc, visits_append, hs, ih (i + bs)]
        simp only [r2]
        split_ifs <;> first | omega | rfl
    · rw [if_neg h]
      simp only [List.nil_append]
      exact downLines_spec y0 x y i

end Verif.Raster

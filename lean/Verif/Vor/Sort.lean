import Verif.Vor.Model
import Verif.Spec.Voronoi
import Verif.Float.Round

/-!
# The comparison of the Voronoi sort is a strict order where it does not panic
-/

namespace Verif.Vor

open Verif.Incr hiding Entry
open Verif.Float Verif.Spec
open Verif.Tri (P2)

/-- Rounded offset from the centre, first coordinate. -/
def dx (F : FloatOps) (c a : FP) : ℚ := F.r64 (a.1 - c.1)

/-- Rounded offset from the centre, second coordinate. -/
def dy (F : FloatOps) (c a : FP) : ℚ := F.r64 (a.2 - c.2)

/-- `b` comes before `a`, in terms of the rounded offsets. -/
def Bef (F : FloatOps) (c b a : FP) : Prop :=
  (dx F c b < 0 ∧ 0 ≤ dx F c a) ∨
  (dx F c b < 0 ∧ dx F c a < 0 ∧ dx F c a * dy F c b < dx F c b * dy F c a) ∨
  (0 ≤ dx F c b ∧ 0 ≤ dx F c a ∧ ¬ (dx F c a = 0 ∧ dx F c b = 0) ∧ dx F c a * dy F c b < dx F c b * dy F c a) ∨
  (dx F c a = 0 ∧ dx F c b = 0 ∧ (0 ≤ dy F c a ∨ 0 ≤ dy F c b) ∧ b.2 < a.2) ∨
  (dx F c a = 0 ∧ dx F c b = 0 ∧ dy F c a < 0 ∧ dy F c b < 0 ∧ a.2 < b.2)

section

variable {F : FloatOps} (R : Rnd 53 F.r64)

include R

theorem r64_neg {x : ℚ} : F.r64 x < 0 ↔ x < 0 := by
  constructor
  · intro h; by_contra hn; have := R.nonneg (not_lt.mp hn); linarith
  · intro h
    have e := R.err x
    rw [abs_of_neg h] at e
    have h2 : -x / 2 ^ 53 < -x := div_lt_self (by linarith) (by norm_num)
    have := (abs_le.mp e).2
    linarith

theorem r64_pos {x : ℚ} : 0 < F.r64 x ↔ 0 < x :=
  ⟨fun h => by by_contra hn; have := R.nonpos (not_lt.mp hn); linarith, R.pos (by norm_num)⟩

theorem r64_zero {x : ℚ} : F.r64 x = 0 ↔ x = 0 := by
  constructor
  · intro h
    rcases lt_trichotomy x 0 with k | k | k
    · exact absurd ((r64_neg R).mpr k) (by linarith)
    · exact k
    · exact absurd ((r64_pos R).mpr k) (by linarith)
  · rintro rfl; exact R.zero

theorem r64_lt {x y : ℚ} (h : F.r64 x < F.r64 y) : x < y := by
  by_contra hn
  have := R.mono _ _ (not_lt.mp hn)
  linarith

theorem cmp_true {c b a : FP} (h : cmp F c b a = some true) : Bef F c b a := by
  unfold cmp at h
  simp only at h
  change (if 0 ≤ dx F c a ∧ dx F c b < 0 then _ else if dx F c a < 0 ∧ 0 ≤ dx F c b then _ else if dx F c a = 0 ∧ dx F c b = 0 then
    if 0 ≤ dy F c a ∨ 0 ≤ dy F c b then _ else _ else
    if F.r64 (F.r64 (dx F c a * dy F c b) - F.r64 (dx F c b * dy F c a)) < 0 then _ else
    if 0 < F.r64 (F.r64 (dx F c a * dy F c b) - F.r64 (dx F c b * dy F c a)) then _ else _) = _ at h
  unfold Bef
  split_ifs at h with h1 h2 h3 h4 h5 h6
  all_goals try (simp at h; done)
  · exact Or.inl ⟨h1.2, h1.1⟩
  · exact Or.inr (Or.inr (Or.inr (Or.inl ⟨h3.1, h3.2, h4, by simpa using h⟩)))
  · push Not at h4
    exact Or.inr (Or.inr (Or.inr (Or.inr ⟨h3.1, h3.2, h4.1, h4.2, by simpa using h⟩)))
  · have := r64_lt R (sub_neg.mp ((r64_neg R).mp h5))
    by_cases hb : dx F c b < 0
    · by_cases ha : dx F c a < 0
      · exact Or.inr (Or.inl ⟨hb, ha, this⟩)
      · exact absurd ⟨not_lt.mp ha, hb⟩ h1
    · by_cases ha : dx F c a < 0
      · exact absurd ⟨ha, not_lt.mp hb⟩ h2
      · exact Or.inr (Or.inr (Or.inl ⟨not_lt.mp hb, not_lt.mp ha, h3, this⟩))

theorem dx_zero {c a : FP} : dx F c a = 0 ↔ a.1 = c.1 := by rw [dx, r64_zero R, sub_eq_zero]

theorem dy_neg {c a : FP} : dy F c a < 0 ↔ a.2 < c.2 := by rw [dy, r64_neg R, sub_neg]

theorem dy_pos {c a : FP} : 0 < dy F c a ↔ c.2 < a.2 := by rw [dy, r64_pos R, sub_pos]

theorem dy_nonneg {c a : FP} : 0 ≤ dy F c a ↔ c.2 ≤ a.2 := by rw [← not_lt, dy_neg R, not_lt]

theorem cmp_false {c b a : FP} (hne : a ≠ b) (h : cmp F c b a = some false) : Bef F c a b := by
  unfold cmp at h
  simp only at h
  change (if 0 ≤ dx F c a ∧ dx F c b < 0 then _ else if dx F c a < 0 ∧ 0 ≤ dx F c b then _ else if dx F c a = 0 ∧ dx F c b = 0 then
    if 0 ≤ dy F c a ∨ 0 ≤ dy F c b then _ else _ else
    if F.r64 (F.r64 (dx F c a * dy F c b) - F.r64 (dx F c b * dy F c a)) < 0 then _ else
    if 0 < F.r64 (F.r64 (dx F c a * dy F c b) - F.r64 (dx F c b * dy F c a)) then _ else _) = _ at h
  have tie : dx F c a = 0 → dx F c b = 0 → a.2 ≠ b.2 := by
    intro e1 e2 e3
    rw [dx_zero R] at e1 e2
    exact hne (Prod.ext (e1.trans e2.symm) e3)
  unfold Bef
  split_ifs at h with h1 h2 h3 h4 h5 h6
  all_goals try (simp at h; done)
  · exact Or.inl h2
  · have k : a.2 ≤ b.2 := by simpa using h
    exact Or.inr (Or.inr (Or.inr (Or.inl ⟨h3.2, h3.1, h4.symm, lt_of_le_of_ne k (tie h3.1 h3.2)⟩)))
  · push Not at h4
    have k : b.2 ≤ a.2 := by simpa using h
    exact Or.inr (Or.inr (Or.inr (Or.inr ⟨h3.2, h3.1, h4.2, h4.1, lt_of_le_of_ne k (tie h3.1 h3.2).symm⟩)))
  · have := r64_lt R (sub_pos.mp ((r64_pos R).mp h6))
    by_cases hb : dx F c b < 0
    · by_cases ha : dx F c a < 0
      · exact Or.inr (Or.inl ⟨ha, hb, this⟩)
      · exact absurd ⟨not_lt.mp ha, hb⟩ h1
    · by_cases ha : dx F c a < 0
      · exact absurd ⟨ha, not_lt.mp hb⟩ h2
      · exact Or.inr (Or.inr (Or.inl ⟨not_lt.mp ha, not_lt.mp hb, fun k => h3 k.symm, this⟩))

omit R in
theorem Bef.asymm {c b a : FP} (h : Bef F c b a) (h' : Bef F c a b) : False := by
  unfold Bef at h h'
  rcases h with ⟨h1, h2⟩ | ⟨h1, h2, h3⟩ | ⟨h1, h2, h3, h4⟩ | ⟨h1, h2, h3, h4⟩ | ⟨h1, h2, h3, h4, h5⟩ <;>
  rcases h' with ⟨k1, k2⟩ | ⟨k1, k2, k3⟩ | ⟨k1, k2, k3, k4⟩ | ⟨k1, k2, k3, k4⟩ | ⟨k1, k2, k3, k4, k5⟩ <;>
  first
    | linarith
    | exact h3 ⟨by assumption, by assumption⟩
    | exact k3 ⟨by assumption, by assumption⟩
    | (rcases h3 with h3 | h3 <;> linarith)
    | (rcases k3 with k3 | k3 <;> linarith)

omit R in
theorem slope {x1 y1 x2 y2 x3 y3 : ℚ} (h : 0 < x2 * x3) (h' : 0 < x1 * x2) (a : x2 * y1 < x1 * y2) (b : x3 * y2 < x2 * y3)
    : (x2 * x2) * (x3 * y1) < (x2 * x2) * (x1 * y3) := by
  have e1 : x2 * x3 * (x2 * y1) < x2 * x3 * (x1 * y2) := mul_lt_mul_of_pos_left a h
  have e2 : x1 * x2 * (x3 * y2) < x1 * x2 * (x2 * y3) := mul_lt_mul_of_pos_left b h'
  linarith

theorem Bef.trans {c x y z : FP} (h : Bef F c x y) (h' : Bef F c y z) : Bef F c x z := by
  have nx := @dy_neg F R c x
  have ny := @dy_neg F R c y
  have nz := @dy_neg F R c z
  have py := @dy_pos F R c y
  have pz := @dy_pos F R c z
  unfold Bef at h h' ⊢
  generalize dx F c x = X at *
  generalize dx F c y = Y at *
  generalize dx F c z = Z at *
  generalize dy F c x = x' at *
  generalize dy F c y = y' at *
  generalize dy F c z = z' at *
  generalize x.2 = x2 at *
  generalize y.2 = y2 at *
  generalize z.2 = z2 at *
  generalize c.2 = c2 at *
  rcases h with ⟨h1, h2⟩ | ⟨h1, h2, h3⟩ | ⟨h1, h2, h3, h4⟩ | ⟨h1, h2, h3, h4⟩ | ⟨h1, h2, h3, h4, h5⟩
  · -- x left, y right
    rcases h' with ⟨k1, k2⟩ | ⟨k1, k2, k3⟩ | ⟨k1, k2, k3, k4⟩ | ⟨k1, k2, k3, k4⟩ | ⟨k1, k2, k3, k4, k5⟩
    · exact Or.inl ⟨h1, k2⟩
    · linarith
    · exact Or.inl ⟨h1, k2⟩
    · exact Or.inl ⟨h1, by linarith⟩
    · exact Or.inl ⟨h1, by linarith⟩
  · -- both left
    rcases h' with ⟨k1, k2⟩ | ⟨k1, k2, k3⟩ | ⟨k1, k2, k3, k4⟩ | ⟨k1, k2, k3, k4⟩ | ⟨k1, k2, k3, k4, k5⟩
    · exact Or.inl ⟨h1, k2⟩
    · refine Or.inr (Or.inl ⟨h1, k2, ?_⟩)
      have := slope (mul_pos_of_neg_of_neg k1 k2) (mul_pos_of_neg_of_neg h1 h2) h3 k3
      exact lt_of_mul_lt_mul_left this (mul_self_nonneg Y)
    · linarith
    · linarith
    · linarith
  · rcases h' with ⟨k1, k2⟩ | ⟨k1, k2, k3⟩ | ⟨k1, k2, k3, k4⟩ | ⟨k1, k2, k3, k4⟩ | ⟨k1, k2, k3, k4, k5⟩
    · linarith
    · linarith
    · -- all right, no two neighbours on the axis
      rcases eq_or_lt_of_le h2 with e | e
      · -- y on the axis
        subst e
        have : 0 < X := lt_of_le_of_ne h1 (fun e => h3 ⟨rfl, e.symm⟩)
        have : 0 < Z := lt_of_le_of_ne k2 (fun e => k3 ⟨e.symm, rfl⟩)
        exfalso
        have a1 : 0 < y' := by
          by_contra hn
          have := mul_nonneg h1 (neg_nonneg.mpr (not_lt.mp hn))
          linarith
        have := mul_nonneg k2 a1.le
        linarith
      · rcases eq_or_lt_of_le h1 with ex | ex
        · subst ex
          have hx' : x' < 0 := by
            by_contra hn
            have := mul_nonneg e.le (not_lt.mp hn)
            linarith
          rcases eq_or_lt_of_le k2 with ez | ez
          · subst ez
            have hz' : 0 < z' := by
              by_contra hn
              have := mul_nonneg e.le (neg_nonneg.mpr (not_lt.mp hn))
              linarith
            refine Or.inr (Or.inr (Or.inr (Or.inl ⟨rfl, rfl, Or.inl hz'.le, ?_⟩)))
            have q1 := nx.mp hx'
            have q2 : ¬ z2 < c2 := fun hh => by have := nz.mpr hh; linarith
            linarith
          · refine Or.inr (Or.inr (Or.inl ⟨le_refl _, k2, fun hh => ez.ne' hh.1, ?_⟩))
            have := mul_pos ez (neg_pos.mpr hx')
            linarith
        · rcases eq_or_lt_of_le k2 with ez | ez
          · subst ez
            have hz' : 0 < z' := by
              by_contra hn
              have := mul_nonneg e.le (neg_nonneg.mpr (not_lt.mp hn))
              linarith
            refine Or.inr (Or.inr (Or.inl ⟨h1, le_refl _, fun hh => ex.ne' hh.2, ?_⟩))
            have := mul_pos ex hz'
            linarith
          · refine Or.inr (Or.inr (Or.inl ⟨h1, k2, fun hh => ex.ne' hh.2, ?_⟩))
            have := slope (mul_pos e ez) (mul_pos ex e) h4 k4
            exact lt_of_mul_lt_mul_left this (mul_self_nonneg Y)
    · -- y, z on the axis
      subst k1 k2
      have hX : 0 < X := lt_of_le_of_ne h1 (fun e => h3 ⟨rfl, e.symm⟩)
      have hy' : 0 < y' := by
        by_contra hn
        have := mul_nonneg h1 (neg_nonneg.mpr (not_lt.mp hn))
        linarith
      have hz' : 0 < z' := pz.mpr (by have := py.mp hy'; linarith)
      refine Or.inr (Or.inr (Or.inl ⟨h1, le_refl _, fun hh => hX.ne' hh.2, ?_⟩))
      have := mul_pos hX hz'
      linarith
    · subst k1 k2
      have hX : 0 < X := lt_of_le_of_ne h1 (fun e => h3 ⟨rfl, e.symm⟩)
      have := mul_nonneg h1 (neg_nonneg.mpr k4.le)
      linarith
  · subst h1 h2
    rcases h' with ⟨k1, k2⟩ | ⟨k1, k2, k3⟩ | ⟨k1, k2, k3, k4⟩ | ⟨k1, k2, k3, k4⟩ | ⟨k1, k2, k3, k4, k5⟩
    · linarith
    · linarith
    · have hZ : 0 < Z := lt_of_le_of_ne k2 (fun e => k3 ⟨e.symm, rfl⟩)
      have hy' : y' < 0 := by
        by_contra hn
        have := mul_nonneg k2 (not_lt.mp hn)
        linarith
      have hx' : x' < 0 := nx.mpr (by have := ny.mp hy'; linarith)
      refine Or.inr (Or.inr (Or.inl ⟨le_refl _, k2, fun hh => hZ.ne' hh.1, ?_⟩))
      have := mul_pos hZ (neg_pos.mpr hx')
      linarith
    · refine Or.inr (Or.inr (Or.inr (Or.inl ⟨k1, rfl, ?_, by linarith⟩)))
      by_contra hn
      push Not at hn
      rcases h3 with q | q
      · have q1 : ¬ y2 < c2 := fun hh => by have := ny.mpr hh; linarith
        have := nz.mp hn.1
        linarith
      · linarith
    · have := ny.mp k4
      have := nz.mp k3
      rcases h3 with q | q
      · linarith
      · have q1 : ¬ x2 < c2 := fun hh => by have := nx.mpr hh; linarith
        linarith
  · subst h1 h2
    rcases h' with ⟨k1, k2⟩ | ⟨k1, k2, k3⟩ | ⟨k1, k2, k3, k4⟩ | ⟨k1, k2, k3, k4⟩ | ⟨k1, k2, k3, k4, k5⟩
    · linarith
    · linarith
    · have hZ : 0 < Z := lt_of_le_of_ne k2 (fun e => k3 ⟨e.symm, rfl⟩)
      refine Or.inr (Or.inr (Or.inl ⟨le_refl _, k2, fun hh => hZ.ne' hh.1, ?_⟩))
      have := mul_pos hZ (neg_pos.mpr h4)
      linarith
    · have hz : ¬ z' < 0 := by
        rcases k3 with q | q <;> linarith
      have q1 := nx.mp h4
      have q2 : ¬ z2 < c2 := fun hh => hz (nz.mpr hh)
      exact Or.inr (Or.inr (Or.inr (Or.inl ⟨k1, rfl, Or.inl (not_lt.mp hz), by linarith⟩)))
    · exact Or.inr (Or.inr (Or.inr (Or.inr ⟨k1, rfl, k3, h4, by linarith⟩)))

theorem cmp_none {c b a : FP} (h : cmp F c b a = none) :
    ((dx F c a < 0 ∧ dx F c b < 0) ∨ (0 ≤ dx F c a ∧ 0 ≤ dx F c b ∧ ¬ (dx F c a = 0 ∧ dx F c b = 0))) ∧
      F.r64 (dx F c a * dy F c b) = F.r64 (dx F c b * dy F c a) := by
  unfold cmp at h
  simp only at h
  change (if 0 ≤ dx F c a ∧ dx F c b < 0 then _ else if dx F c a < 0 ∧ 0 ≤ dx F c b then _ else if dx F c a = 0 ∧ dx F c b = 0 then
    if 0 ≤ dy F c a ∨ 0 ≤ dy F c b then _ else _ else
    if F.r64 (F.r64 (dx F c a * dy F c b) - F.r64 (dx F c b * dy F c a)) < 0 then _ else
    if 0 < F.r64 (F.r64 (dx F c a * dy F c b) - F.r64 (dx F c b * dy F c a)) then _ else _) = _ at h
  split_ifs at h with h1 h2 h3 h4 h5 h6
  have hz : F.r64 (F.r64 (dx F c a * dy F c b) - F.r64 (dx F c b * dy F c a)) = 0 := by linarith
  rw [r64_zero R, sub_eq_zero] at hz
  refine ⟨?_, hz⟩
  by_cases hb : dx F c b < 0
  · by_cases ha : dx F c a < 0
    · exact Or.inl ⟨ha, hb⟩
    · exact absurd ⟨not_lt.mp ha, hb⟩ h1
  · by_cases ha : dx F c a < 0
    · exact absurd ⟨ha, not_lt.mp hb⟩ h2
    · exact Or.inr ⟨not_lt.mp ha, not_lt.mp hb, h3⟩

theorem cmp_clash {q : Pt} {b a : FP} (h : cmp F ((q.x : ℚ), (q.y : ℚ)) b a = none) : Clash F q a b := cmp_none R h

omit R in
theorem clash_symm {q : Pt} {a b : FP} (h : Clash F q a b) : Clash F q b a := by
  unfold Clash at h ⊢
  obtain ⟨h1, h2⟩ := h
  refine ⟨?_, h2.symm⟩
  rcases h1 with h1 | h1
  · exact Or.inl h1.symm
  · exact Or.inr ⟨h1.2.1, h1.1, fun k => h1.2.2 k.symm⟩

omit R in
theorem clash_cmp_of (hz : ∀ {x y : ℚ}, F.r64 x = F.r64 y → F.r64 (F.r64 x - F.r64 y) = 0) {q : Pt} {b a : FP} (h : Clash F q a b) :
    cmp F ((q.x : ℚ), (q.y : ℚ)) b a = none := by
  unfold Clash at h
  obtain ⟨h1, h2⟩ := h
  unfold cmp
  simp only
  rw [if_neg, if_neg, if_neg, if_neg, if_neg]
  · rw [hz h2]; simp
  · rw [hz h2]; simp
  · rintro ⟨e1, e2⟩
    rcases h1 with h1 | h1
    · linarith [h1.1]
    · exact h1.2.2 ⟨e1, e2⟩
  · rintro ⟨e1, e2⟩
    rcases h1 with h1 | h1 <;> linarith [h1.1, h1.2]
  · rintro ⟨e1, e2⟩
    rcases h1 with h1 | h1
    · linarith [h1.1, h1.2]
    · linarith [h1.2.1]

/-- The order on a list without clashes. -/
theorem cmp_total {q : Pt} {b a : FP} (hne : a ≠ b) (h : ¬ Clash F q a b) :
    (cmp F ((q.x : ℚ), (q.y : ℚ)) b a = some true ∧ cmp F ((q.x : ℚ), (q.y : ℚ)) a b = some false) ∨
      (cmp F ((q.x : ℚ), (q.y : ℚ)) b a = some false ∧ cmp F ((q.x : ℚ), (q.y : ℚ)) a b = some true) := by
  set c : FP := ((q.x : ℚ), (q.y : ℚ))
  cases h1 : cmp F c b a with
  | none => exact (h (cmp_clash R h1)).elim
  | some u =>
    cases h2 : cmp F c a b with
    | none => exact (h (clash_symm (cmp_clash R h2))).elim
    | some v =>
      cases u with
      | true =>
        cases v with
        | true => exact ((cmp_true R h1).asymm (cmp_true R h2)).elim
        | false => exact Or.inl ⟨rfl, rfl⟩
      | false =>
        cases v with
        | true => exact Or.inr ⟨rfl, rfl⟩
        | false => exact ((cmp_false R hne h1).asymm (cmp_false R hne.symm h2)).elim

theorem cmp_irrefl (c a : FP) : cmp F c a a ≠ some true := fun h => (cmp_true R h).asymm (cmp_true R h)

theorem cmp_trans {q : Pt} {x y z : FP} (hxz : x = z ∨ ¬ Clash F q z x) (h : cmp F ((q.x : ℚ), (q.y : ℚ)) x y = some true)
    (h' : cmp F ((q.x : ℚ), (q.y : ℚ)) y z = some true) : cmp F ((q.x : ℚ), (q.y : ℚ)) x z = some true := by
  have hb := (cmp_true R h).trans R (cmp_true R h')
  rcases hxz with rfl | hn
  · exact (hb.asymm hb).elim
  · by_cases e : z = x
    · subst e; exact (hb.asymm hb).elim
    rcases cmp_total R e hn with k | k
    · exact k.1
    · exact (hb.asymm (cmp_true R k.2)).elim

/-- Sorting a list without clashes succeeds, and the result does not depend on the order of the list. -/
theorem sort_unique {srt : Sorter} (S : SorterOK srt) {q : Pt} {l : List FP} (hn : l.Nodup)
    (hc : ∀ a ∈ l, ∀ b ∈ l, a ≠ b → ¬ Clash F q a b) :
    ∃ r, r.Perm l ∧ r.Pairwise (fun a b => cmp F ((q.x : ℚ), (q.y : ℚ)) a b = some true) ∧
      ∀ l', l'.Perm l → srt (cmp F ((q.x : ℚ), (q.y : ℚ))) l' = some r := by
  have key : ∀ l' : List FP, l'.Perm l → ∃ r, srt (cmp F ((q.x : ℚ), (q.y : ℚ))) l' = some r ∧ r.Perm l ∧
      r.Pairwise (fun a b => cmp F ((q.x : ℚ), (q.y : ℚ)) a b = some true) := by
    intro l' hp
    have hn' : l'.Nodup := hp.nodup_iff.mpr hn
    have hc' : ∀ a ∈ l', ∀ b ∈ l', a ≠ b → ¬ Clash F q a b := fun a ha b hb => hc a (hp.mem_iff.mp ha) b (hp.mem_iff.mp hb)
    have pw : l'.Pairwise (fun a b => (cmp F ((q.x : ℚ), (q.y : ℚ)) a b = some true ∧ cmp F ((q.x : ℚ), (q.y : ℚ)) b a = some false) ∨
        (cmp F ((q.x : ℚ), (q.y : ℚ)) a b = some false ∧ cmp F ((q.x : ℚ), (q.y : ℚ)) b a = some true)) := by
      refine List.Pairwise.imp_of_mem ?_ hn'
      intro a b ha hb hne
      exact cmp_total R (Ne.symm hne) (hc' b hb a ha (Ne.symm hne))
    obtain ⟨r, hr⟩ := S.some (cmp F ((q.x : ℚ), (q.y : ℚ))) l' (pw.imp (by
      rintro a b (k | k) <;> rw [k.1, k.2] <;> simp))
    refine ⟨r, hr, (S.perm _ _ _ hr).trans hp, S.sorted _ _ _ hr pw ?_⟩
    intro x hx y hy z hz h1 h2
    by_cases e : x = z
    · exact cmp_trans R (Or.inl e) h1 h2
    · exact cmp_trans R (Or.inr (hc' z hz x hx (Ne.symm e))) h1 h2
  obtain ⟨r, h1, h2, h3⟩ := key l (List.Perm.refl _)
  refine ⟨r, h2, h3, fun l' hp => ?_⟩
  obtain ⟨r', k1, k2, k3⟩ := key l' hp
  rw [k1]
  congr 1
  refine List.Perm.eq_of_pairwise (le := fun a b => cmp F ((q.x : ℚ), (q.y : ℚ)) a b = some true) ?_ k3 h3 (k2.trans h2.symm)
  intro a b _ _ e1 e2
  exact ((cmp_true R e1).asymm (cmp_true R e2)).elim

/-- The polygon of a cell without clashes does not depend on the order of the corners. -/
theorem cellPoly_unique {srt : Sorter} (S : SorterOK srt) (w h : Nat) {q : Pt} {l : List FP} (hn : l.Nodup)
    (hc : ∀ a ∈ l, ∀ b ∈ l, a ≠ b → ¬ Clash F q a b) (clip : Bool) :
    ∃ r, ∀ l', l'.Perm l → cellPoly F srt w h q l' clip = some r := by
  obtain ⟨pts, _, _, h3⟩ := sort_unique R S hn hc
  cases clip with
  | false => exact ⟨pts, fun l' hp => by simp [cellPoly, h3 l' hp]⟩
  | true =>
    obtain ⟨r, hr⟩ := S.some (fun b a => some (less F (mean F (clipPoints F w h pts)) b a)) (clipPoints F w h pts)
      (List.Pairwise.imp_of_mem (R := fun _ _ => True) (by intro a b _ _ _; simp) (by simp [List.pairwise_iff_getElem]))
    exact ⟨r, fun l' hp => by simp [cellPoly, h3 l' hp, hr]⟩

omit R in
/-- Without rounding there are no clashes. -/
theorem exact_no_clash (E : Exact F) (w h : Nat) (s : Multiset Pt) (q : Pt) : ¬ CellClash F w h s q := by
  rintro ⟨o, o', ⟨⟨u, _, su, -, n1, -, -, e1, -⟩, del⟩, ⟨⟨u', _, su', -, n1', -, -, e1', -⟩, del'⟩, hne, hcl⟩
  have i1 := del' u su
  have i2 := del u' su'
  unfold Clash stored at hcl
  unfold stored at hne
  simp only [E.1, E.2] at hcl hne
  unfold d2 at e1 e1' i1 i2
  set x := o.x - q.x with hx
  set y := o.y - q.y with hy
  set x' := o'.x - q.x with hx'
  set y' := o'.y - q.y with hy'
  set a : ℚ := u.x - q.x with ha
  set b : ℚ := u.y - q.y with hb
  set a' : ℚ := u'.x - q.x with ha'
  set b' : ℚ := u'.y - q.y with hb'
  have pos : ∀ {v : Pt}, v ≠ q → 0 < ((v.x : ℚ) - q.x) ^ 2 + ((v.y : ℚ) - q.y) ^ 2 := by
    intro v hv
    have : (v.x : ℚ) - q.x ≠ 0 ∨ (v.y : ℚ) - q.y ≠ 0 := by
      by_contra hn
      push Not at hn
      exact hv (Pt.ext (by exact_mod_cast sub_eq_zero.mp hn.1) (by exact_mod_cast sub_eq_zero.mp hn.2))
    rcases this with k | k <;> positivity
  have pu := pos n1
  have pu' := pos n1'
  rw [← ha, ← hb] at pu
  rw [← ha', ← hb'] at pu'
  have f1 : a ^ 2 + b ^ 2 = 2 * (x * a + y * b) := by rw [ha, hb, hx, hy]; linarith
  have f2 : a' ^ 2 + b' ^ 2 = 2 * (x' * a' + y' * b') := by rw [ha', hb', hx', hy']; linarith
  have g1 : 2 * (x' * a + y' * b) ≤ a ^ 2 + b ^ 2 := by rw [ha, hb, hx', hy']; linarith
  have g2 : 2 * (x * a' + y * b') ≤ a' ^ 2 + b' ^ 2 := by rw [ha', hb', hx, hy]; linarith
  obtain ⟨hs, hp⟩ := hcl
  have k1 : x' * (a ^ 2 + b ^ 2) = x * (2 * (x' * a + y' * b)) := by rw [f1]; linear_combination (-2 * b) * hp
  have k2 : x * (a' ^ 2 + b' ^ 2) = x' * (2 * (x * a' + y * b')) := by rw [f2]; linear_combination (2 * b') * hp
  have fin : x = x' → x ≠ 0 → False := by
    intro e1 e2
    rw [← e1] at hp
    have := mul_left_cancel₀ e2 hp
    exact hne (Prod.ext (by linarith) (by linarith))
  rcases hs with ⟨s1, s2⟩ | ⟨s1, s2, s3⟩
  · have m1 : x * (a ^ 2 + b ^ 2) ≤ x' * (a ^ 2 + b ^ 2) := by
      rw [k1]; exact mul_le_mul_of_nonpos_left g1 s1.le
    have m2 : x' * (a' ^ 2 + b' ^ 2) ≤ x * (a' ^ 2 + b' ^ 2) := by
      rw [k2]; exact mul_le_mul_of_nonpos_left g2 s2.le
    exact fin (le_antisymm (le_of_mul_le_mul_right m1 pu) (le_of_mul_le_mul_right m2 pu')) s1.ne
  · have x0 : x ≠ 0 := by
      intro e
      have hx0 : x' ≠ 0 := fun e' => s3 ⟨e, e'⟩
      rw [e] at k1
      have := (mul_eq_zero.mp (k1.trans (zero_mul _))).resolve_left hx0
      linarith
    have x0' : x' ≠ 0 := by
      intro e
      rw [e] at k2
      have := (mul_eq_zero.mp (k2.trans (zero_mul _))).resolve_left x0
      linarith
    have m1 : x' * (a ^ 2 + b ^ 2) ≤ x * (a ^ 2 + b ^ 2) := by
      rw [k1]; exact mul_le_mul_of_nonneg_left g1 s1
    have m2 : x * (a' ^ 2 + b' ^ 2) ≤ x' * (a' ^ 2 + b' ^ 2) := by
      rw [k2]; exact mul_le_mul_of_nonneg_left g2 s2
    exact fin (le_antisymm (le_of_mul_le_mul_right m2 pu') (le_of_mul_le_mul_right m1 pu)) x0

end

/-! ### Insertion sort, as the library does for up to 12 elements -/

/-- `insertionSort` of package `sort`: move `x` left past the elements it is less than; the list is reversed. -/
def goInsert (c : FP → FP → Option Bool) (x : FP) : List FP → Option (List FP)
  | [] => some [x]
  | y :: ys =>
    match c x y with
    | none => none
    | some true => (goInsert c x ys).map (y :: ·)
    | some false => some (x :: y :: ys)

/-- `insertionSort` of package `sort`. -/
def goSort : Sorter := fun c l => (l.foldlM (fun acc x => goInsert c x acc) []).map List.reverse

theorem goInsert_perm {c : FP → FP → Option Bool} {x : FP} : ∀ {l r : List FP}, goInsert c x l = some r → r.Perm (x :: l) := by
  intro l
  induction l with
  | nil => intro r h; cases h; exact List.Perm.refl _
  | cons y ys ih =>
    intro r h
    unfold goInsert at h
    cases hc : c x y with
    | none => rw [hc] at h; cases h
    | some b =>
      rw [hc] at h
      cases b with
      | true =>
        simp only [Option.map_eq_some_iff] at h
        obtain ⟨r', h1, rfl⟩ := h
        exact ((ih h1).cons y).trans (List.Perm.swap x y ys)
      | false => simp only [Option.some.injEq] at h; subst h; exact List.Perm.refl _

theorem goInsert_some {c : FP → FP → Option Bool} {x : FP} : ∀ {l : List FP}, (∀ y ∈ l, (c x y).isSome = true) →
    ∃ r, goInsert c x l = some r := by
  intro l
  induction l with
  | nil => intro _; exact ⟨_, rfl⟩
  | cons y ys ih =>
    intro h
    unfold goInsert
    obtain ⟨r, hr⟩ := ih (fun z hz => h z (by simp [hz]))
    cases hc : c x y with
    | none => have := h y (by simp); rw [hc] at this; cases this
    | some b =>
      cases b with
      | true => exact ⟨y :: r, by simp [hr]⟩
      | false => exact ⟨_, rfl⟩

theorem goInsert_sorted {c : FP → FP → Option Bool} {x : FP} : ∀ {l r : List FP}, goInsert c x l = some r →
    (∀ y ∈ l, c x y = some true ∨ c y x = some true) → (∀ y ∈ l, ∀ z ∈ l, c z y = some true → c y x = some true → c z x = some true) →
    l.Pairwise (fun a b => c b a = some true) → (∀ y ∈ l, c x y = some false → c y x = some true) →
    r.Pairwise (fun a b => c b a = some true) := by
  intro l
  induction l with
  | nil => intro r h _ _ _ _; cases h; simp
  | cons y ys ih =>
    intro r h h1 h2 h3 h4
    rw [List.pairwise_cons] at h3
    unfold goInsert at h
    cases hc : c x y with
    | none => rw [hc] at h; cases h
    | some b =>
      rw [hc] at h
      cases b with
      | true =>
        simp only [Option.map_eq_some_iff] at h
        obtain ⟨r', k1, rfl⟩ := h
        rw [List.pairwise_cons]
        refine ⟨fun z hz => ?_, ih k1 (fun z hz => h1 z (by simp [hz])) (fun a ha b hb => h2 a (by simp [ha]) b (by simp [hb])) h3.2
          (fun z hz => h4 z (by simp [hz]))⟩
        rcases List.mem_cons.mp ((goInsert_perm k1).mem_iff.mp hz) with rfl | hz
        · exact hc
        · exact h3.1 z hz
      | false =>
        simp only [Option.some.injEq] at h
        subst h
        rw [List.pairwise_cons, List.pairwise_cons]
        have hy := h4 y (by simp) hc
        refine ⟨fun z hz => ?_, h3⟩
        rcases List.mem_cons.mp hz with rfl | hz
        · exact hy
        · exact h2 y (by simp) z (by simp [hz]) (h3.1 z hz) hy

theorem goFold_perm {c : FP → FP → Option Bool} : ∀ (l acc r : List FP), l.foldlM (fun acc x => goInsert c x acc) acc = some r →
    r.Perm (l ++ acc) := by
  intro l
  induction l with
  | nil => intro acc r h; cases h; exact List.Perm.refl _
  | cons x l ih =>
    intro acc r h
    rw [List.foldlM_cons] at h
    obtain ⟨acc', h1, h2⟩ := Option.bind_eq_some_iff.mp h
    refine (ih _ _ h2).trans ?_
    refine ((goInsert_perm h1).append_left l).trans ?_
    exact List.perm_middle

theorem goSort_ok : SorterOK goSort := by
  refine ⟨?_, ?_, ?_⟩
  · intro c l h
    suffices H : ∀ (l acc : List FP), (acc ++ l).Pairwise (fun a b => (c a b).isSome = true ∧ (c b a).isSome = true) →
        ∃ r, l.foldlM (fun acc x => goInsert c x acc) acc = some r by
      obtain ⟨r, hr⟩ := H l [] (by simpa using h)
      exact ⟨r.reverse, by unfold goSort; rw [hr]; rfl⟩
    intro l
    induction l with
    | nil => intro acc _; exact ⟨acc, rfl⟩
    | cons x l ih =>
      intro acc h
      have h' := List.pairwise_append.mp h
      obtain ⟨r, hr⟩ := goInsert_some (c := c) (x := x) (l := acc) (fun y hy => (h'.2.2 y hy x (by simp)).2)
      have hp : (acc ++ x :: l).Perm (r ++ l) := List.perm_middle.trans (((goInsert_perm hr).append_right l).symm)
      obtain ⟨r', hr'⟩ := ih r (h.perm hp (fun {a b} k => k.symm))
      exact ⟨r', by rw [List.foldlM_cons, hr]; exact hr'⟩
  · intro c l l' h
    unfold goSort at h
    obtain ⟨r, h1, rfl⟩ := Option.map_eq_some_iff.mp h
    have := goFold_perm _ _ _ h1
    rw [List.append_nil] at this
    exact (List.reverse_perm r).trans this
  · intro c l l' h hp ht
    unfold goSort at h
    obtain ⟨r, h1, rfl⟩ := Option.map_eq_some_iff.mp h
    rw [List.pairwise_reverse]
    suffices H : ∀ (l acc r : List FP), l.foldlM (fun acc x => goInsert c x acc) acc = some r →
        (acc ++ l).Pairwise (fun a b => (c a b = some true ∧ c b a = some false) ∨ (c a b = some false ∧ c b a = some true)) →
        (∀ x ∈ acc ++ l, ∀ y ∈ acc ++ l, ∀ z ∈ acc ++ l, c x y = some true → c y z = some true → c x z = some true) →
        acc.Pairwise (fun a b => c b a = some true) → r.Pairwise (fun a b => c b a = some true) by
      exact H l [] r h1 (by simpa using hp) (by simpa using ht) List.Pairwise.nil
    intro l
    induction l with
    | nil => intro acc r h _ _ hs; cases h; exact hs
    | cons x l ih =>
      intro acc r h hp ht hs
      rw [List.foldlM_cons] at h
      obtain ⟨acc', e1, e2⟩ := Option.bind_eq_some_iff.mp h
      have hpm : (acc ++ x :: l).Perm (acc' ++ l) := List.perm_middle.trans (((goInsert_perm e1).append_right l).symm)
      have h' := List.pairwise_append.mp hp
      refine ih acc' r e2 (hp.perm hpm (fun {a b} k => k.elim (fun k => Or.inr k.symm) (fun k => Or.inl k.symm))) ?_ ?_
      · intro a ha b hb e he
        exact ht a (hpm.mem_iff.mpr ha) b (hpm.mem_iff.mpr hb) e (hpm.mem_iff.mpr he)
      · refine goInsert_sorted e1 ?_ ?_ hs ?_
        · intro y hy
          rcases h'.2.2 y hy x (by simp) with k | k
          · exact Or.inr k.1
          · exact Or.inl k.2
        · intro y hy z hz
          exact ht z (by simp [hz]) y (by simp [hy]) x (by simp)
        · intro y hy hf
          rcases h'.2.2 y hy x (by simp) with k | k
          · exact k.1
          · rw [k.2] at hf; cases hf

end Verif.Vor

import Verif.Alg.PolyFun
import Verif.Spec.Polygon
import Verif.Props.Raster

/-!
# Rasterizing polygons

A polygon is rasterized triangle by triangle, in a fan around its first vertex.
-/

namespace Verif.Raster

open Verif.Tri Verif.Spec Verif.Float Verif.Alg Verif.Props
open Verif.Incr hiding trunc step run Entry

/-- rasterize/polygon.go 5-9 `DDAPolygonBlocks`. -/
def DDAPolygonBlocks (fl : ℚ → ℚ) (z : ℚ) (ps : List Pt) (bs : Nat) : List Ev := (fan ps).flatMap fun t => DDATriangleBlocks fl z t bs

/-- rasterize/polygon.go 11-15 `DDAPolygon`. -/
def DDAPolygon (fl : ℚ → ℚ) (z : ℚ) (ps : List Pt) : List (Int × Int) := (fan ps).flatMap (DDATriangle fl z)

theorem fan_nil : fan [] = [] := rfl
theorem fan_one (p : Pt) : fan [p] = [] := rfl
theorem fan_two (p a : Pt) : fan [p, a] = [] := rfl
theorem fan_cons (p a b : Pt) (l : List Pt) : fan (p :: a :: b :: l) = ⟨b, a, p⟩ :: fan (p :: b :: l) := rfl

theorem edges_cons (p a : Pt) (l : List Pt) : edges (p :: a :: l) = (p, a) :: (a :: l).zip (l ++ [p]) := rfl

/-- All edges have `q` on their left. -/
def Left (ps : List Pt) (q : P2) : Prop := ∀ e ∈ edges ps, 0 < area2 e.1 e.2 q

theorem left_cons {p a b : Pt} {l : List Pt} {q : P2} :
    Left (p :: a :: b :: l) q ↔ 0 < area2 p a q ∧ 0 < area2 a b q ∧ ∀ e ∈ (b :: l).zip (l ++ [p]), 0 < area2 e.1 e.2 q := by
  unfold Left
  rw [edges_cons]
  simp

theorem left_two {p a : Pt} {l : List Pt} {q : P2} :
    Left (p :: a :: l) q ↔ 0 < area2 p a q ∧ ∀ e ∈ (a :: l).zip (l ++ [p]), 0 < area2 e.1 e.2 q := by
  unfold Left
  rw [edges_cons]
  simp

theorem area_swap (a b : Pt) (q : P2) : area2 b a q = - area2 a b q := by unfold area2; ring
theorem area_rot (a b c : Pt) : area2 b c (loc a) = area2 a b (loc c) := by unfold area2 loc; ring
theorem area_rot' (a b c : Pt) : area2 c a (loc b) = area2 a b (loc c) := by unfold area2 loc; ring
theorem area_bb (a b : Pt) : area2 a b (loc b) = 0 := by unfold area2 loc; ring
theorem area_aa (a b : Pt) : area2 a b (loc a) = 0 := by unfold area2 loc; ring

/-- A location is the weighted mean of the vertices of a triangle. -/
theorem area_bary (u v a b c : Pt) (q : P2) : area2 u v q * area2 a b (loc c) =
    area2 b c q * area2 u v (loc a) + area2 c a q * area2 u v (loc b) + area2 a b q * area2 u v (loc c) := by
  unfold area2 loc; ring

/-- Edges of the part of a polygon after its second vertex. -/
theorem mem_zip_next {p u v : Pt} : ∀ {l : List Pt} {b : Pt}, (u, v) ∈ (b :: l).zip (l ++ [p]) →
    [u, v].Sublist (b :: l) ∨ (u ∈ b :: l ∧ v = p)
  | [], b, h => by
    simp at h
    exact Or.inr ⟨by simp [h.1], h.2⟩
  | c :: l, b, h => by
    simp only [List.cons_append, List.zip_cons_cons, List.mem_cons, Prod.mk.injEq] at h
    rcases h with ⟨rfl, rfl⟩ | h
    · exact Or.inl (by simp)
    · rcases mem_zip_next (l := l) (b := c) h with h | ⟨h, h'⟩
      · exact Or.inl (h.trans (List.sublist_cons_self _ _))
      · exact Or.inr ⟨List.mem_cons_of_mem _ h, h'⟩

theorem turns_tail {p a : Pt} {l : List Pt} (h : TurnsLeft (p :: a :: l)) : TurnsLeft (p :: l) :=
  fun x y z hs => h x y z (hs.trans (by simp))

theorem last_edge (p : Pt) : ∀ (l : List Pt) (b : Pt), ∃ e ∈ b :: l, (e, p) ∈ (b :: l).zip (l ++ [p]) ∧ (l ≠ [] → e ∈ l)
  | [], b => ⟨b, by simp, by simp, by simp⟩
  | c :: l, b => by
    obtain ⟨e, h1, h2, h3⟩ := last_edge p l c
    refine ⟨e, List.mem_cons_of_mem _ h1, ?_, fun _ => h1⟩
    simp only [List.cons_append, List.zip_cons_cons, List.mem_cons]
    exact Or.inr h2

section
variable {p a b : Pt} {l : List Pt} (H : TurnsLeft (p :: a :: b :: l))
include H

theorem first_pos : 0 < area2 p a (loc b) := H p a b (by simp)

/-- The vertices of the first triangle are on the left of all other edges, the second vertex strictly. -/
theorem edge_first {u v : Pt} (h : (u, v) ∈ (b :: l).zip (l ++ [p])) :
    0 ≤ area2 u v (loc p) ∧ 0 < area2 u v (loc a) ∧ 0 ≤ area2 u v (loc b) := by
  rcases mem_zip_next h with h | ⟨hu, rfl⟩
  · refine ⟨?_, ?_, ?_⟩
    · rw [area_rot]; exact (H p u v ((h.trans (List.sublist_cons_self _ _)).cons_cons _)).le
    · rw [area_rot]; exact H a u v ((h.cons_cons _).trans (List.sublist_cons_self _ _))
    · rcases List.sublist_cons_iff.mp h with h | ⟨r, e, h⟩
      · rw [area_rot]; exact (H b u v (((h.cons_cons _).trans (List.sublist_cons_self _ _)).trans (List.sublist_cons_self _ _))).le
      · cases e
        rw [area_aa]
  · refine ⟨by rw [area_bb], ?_, ?_⟩
    · rw [area_rot']
      exact H v a u (((List.singleton_sublist.mpr hu).cons_cons _).cons_cons _)
    · rcases List.mem_cons.mp hu with rfl | h
      · rw [area_aa]
      · rw [area_rot']
        exact (H v b u ((((List.singleton_sublist.mpr h).cons_cons _).trans (List.sublist_cons_self _ _)).cons_cons _)).le

/-- The open first triangle is in the open polygon. -/
theorem left_of_tri {q : P2} (h1 : 0 < area2 p a q) (h2 : 0 < area2 a b q) (h3 : 0 < area2 b p q) : Left (p :: a :: b :: l) q := by
  rw [left_cons]
  refine ⟨h1, h2, ?_⟩
  rintro ⟨u, v⟩ he
  obtain ⟨k1, k2, k3⟩ := edge_first H he
  have hp := first_pos H
  have := area_bary u v p a b q
  have h : 0 < area2 u v q * area2 p a (loc b) := by
    rw [this]
    have := mul_nonneg h2.le k1
    have := mul_pos h3 k2
    have := mul_nonneg h1.le k3
    linarith
  exact pos_of_mul_pos_left h hp.le

/-- The closed first triangle is in the closed polygon. -/
theorem closed_of_tri {q : P2} (h1 : 0 ≤ area2 p a q) (h2 : 0 ≤ area2 a b q) (h3 : 0 ≤ area2 b p q) :
    ∀ e ∈ edges (p :: a :: b :: l), 0 ≤ area2 e.1 e.2 q := by
  rw [edges_cons]
  simp only [List.cons_append, List.zip_cons_cons, List.mem_cons, forall_eq_or_imp]
  refine ⟨h1, h2, ?_⟩
  rintro ⟨u, v⟩ he
  obtain ⟨k1, k2, k3⟩ := edge_first H he
  have hp := first_pos H
  have := area_bary u v p a b q
  have h : 0 ≤ area2 u v q * area2 p a (loc b) := by
    rw [this]
    have := mul_nonneg h2 k1
    have := mul_nonneg h3 k2.le
    have := mul_nonneg h1 k3
    linarith
  exact nonneg_of_mul_nonneg_left h hp

/-- The part of the open polygon off the line through `p` and `b`. -/
theorem left_split {q : P2} (hq : area2 p b q ≠ 0) :
    Left (p :: a :: b :: l) q ↔ Left (p :: b :: l) q ∨ (0 < area2 p a q ∧ 0 < area2 a b q ∧ 0 < area2 b p q) := by
  constructor
  · intro h
    rw [left_cons] at h
    rcases lt_or_gt_of_ne hq with k | k
    · exact Or.inr ⟨h.1, h.2.1, by rw [area_swap]; linarith⟩
    · exact Or.inl (left_two.mpr ⟨k, h.2.2⟩)
  · rintro (h | ⟨h1, h2, h3⟩)
    · rw [left_two] at h
      obtain ⟨h1, h2⟩ := h
      rw [left_cons]
      cases l with
      | nil =>
        exfalso
        have := h2 (b, p) (by simp)
        simp only at this
        rw [area_swap] at this
        linarith
      | cons c l =>
        obtain ⟨e, m1, m2, m3⟩ := last_edge p (c :: l) b
        have k1 := h2 (b, c) (by simp)
        have k2 := h2 (e, p) m2
        have me := m3 (by simp)
        simp only at k1 k2
        have a1 := first_pos H
        have a2 : 0 < area2 a b (loc c) := H a b c (by simp)
        have a3 : 0 < area2 p b (loc c) := H p b c (by simp)
        have a4 : 0 < area2 p b (loc e) := H p b e (((List.singleton_sublist.mpr me).cons_cons b |>.cons a).cons_cons p)
        have a5 : 0 < area2 p a (loc e) := H p a e (((List.singleton_sublist.mpr me).cons b |>.cons_cons a).cons_cons p)
        refine ⟨?_, ?_, h2⟩
        · have id1 : area2 p a q * area2 p b (loc e) = area2 p a (loc b) * area2 e p q + area2 p a (loc e) * area2 p b q := by
            unfold area2 loc; ring
          have := mul_pos a1 k2
          have := mul_pos a5 h1
          exact pos_of_mul_pos_left (by linarith : 0 < area2 p a q * area2 p b (loc e)) a4.le
        · have id2 : area2 a b q * area2 p b (loc c) = area2 p a (loc b) * area2 b c q + area2 a b (loc c) * area2 p b q := by
            unfold area2 loc; ring
          have := mul_pos a1 k1
          have := mul_pos a2 h1
          exact pos_of_mul_pos_left (by linarith : 0 < area2 a b q * area2 p b (loc c)) a3.le
    · exact left_of_tri H h1 h2 h3

end

/-! ### Infinitesimal shifts -/

/-- The location of `Owns`. -/
def shift (q : P2) (e : ℚ) : P2 := ⟨q.x - e, q.y + e ^ 2⟩

/-- For all small positive numbers. -/
def Soon (P : ℚ → Prop) : Prop := ∃ e0 : ℚ, 0 < e0 ∧ ∀ e : ℚ, 0 < e → e ≤ e0 → P e

theorem Soon.and {P Q : ℚ → Prop} (h : Soon P) (k : Soon Q) : Soon fun e => P e ∧ Q e := by
  obtain ⟨a, a0, ha⟩ := h
  obtain ⟨b, b0, hb⟩ := k
  exact ⟨min a b, lt_min a0 b0, fun e e0 he => ⟨ha e e0 (he.trans (min_le_left _ _)), hb e e0 (he.trans (min_le_right _ _))⟩⟩

theorem Soon.mono {P Q : ℚ → Prop} (h : Soon P) (k : ∀ e, 0 < e → P e → Q e) : Soon Q := by
  obtain ⟨a, a0, ha⟩ := h
  exact ⟨a, a0, fun e e0 he => k e e0 (ha e e0 he)⟩

theorem Soon.exists {P : ℚ → Prop} (h : Soon P) : ∃ e, 0 < e ∧ P e := by
  obtain ⟨a, a0, ha⟩ := h
  exact ⟨a, a0, ha a a0 le_rfl⟩

theorem Soon.all {α : Type} {P : α → ℚ → Prop} : ∀ {L : List α}, (∀ x ∈ L, Soon (P x)) → Soon fun e => ∀ x ∈ L, P x e
  | [], _ => ⟨1, by norm_num, by simp⟩
  | x :: L, h => by
    refine ((h x (by simp)).and (Soon.all (L := L) fun y hy => h y (by simp [hy]))).mono ?_
    rintro e - ⟨h1, h2⟩
    simpa using ⟨h1, h2⟩

theorem soon_pos {A B C : ℚ} (hA : 0 < A) : Soon fun e => 0 < A + B * e + C * e ^ 2 := by
  have hk : 0 < |B| + |C| + 1 := by positivity
  refine ⟨min 1 (A / (|B| + |C| + 1)), lt_min one_pos (div_pos hA hk), ?_⟩
  intro e e0 he
  have h1 := he.trans (min_le_left _ _)
  have h2 := (le_div_iff₀ hk).mp (he.trans (min_le_right _ _))
  have b := neg_abs_le (B * e)
  have c := neg_abs_le (C * e ^ 2)
  rw [abs_mul, abs_of_pos e0] at b
  rw [abs_mul, abs_of_pos (by positivity : 0 < e ^ 2)] at c
  have : |C| * e ^ 2 ≤ |C| * e := mul_le_mul_of_nonneg_left (by nlinarith) (abs_nonneg _)
  nlinarith

theorem soon_sign {A B C : ℚ} (h : A ≠ 0 ∨ B ≠ 0 ∨ C ≠ 0) :
    (Soon fun e => 0 < A + B * e + C * e ^ 2) ∨ Soon fun e => A + B * e + C * e ^ 2 < 0 := by
  have flip : ∀ A B C : ℚ, (Soon fun e => 0 < -A + -B * e + -C * e ^ 2) → Soon fun e => A + B * e + C * e ^ 2 < 0 := by
    intro A B C h
    exact h.mono fun e _ he => by linarith
  rcases lt_trichotomy A 0 with hA | rfl | hA
  · exact Or.inr (flip _ _ _ (soon_pos (by linarith)))
  · have up : ∀ B C : ℚ, 0 < B → Soon fun e => 0 < 0 + B * e + C * e ^ 2 := by
      intro B C hB
      refine (soon_pos (B := C) (C := 0) hB).mono ?_
      intro e e0 he
      have := mul_pos e0 he
      linarith [show e * (B + C * e + 0 * e ^ 2) = B * e + C * e ^ 2 by ring]
    have up2 : ∀ C : ℚ, 0 < C → Soon fun e => 0 < 0 + 0 * e + C * e ^ 2 := by
      intro C hC
      exact ⟨1, one_pos, fun e e0 _ => by have := mul_pos hC (pow_pos e0 2); linarith⟩
    rcases lt_trichotomy B 0 with hB | rfl | hB
    · exact Or.inr (flip _ _ _ (by simpa using up (-B) (-C) (by linarith)))
    · have hC : C ≠ 0 := by tauto
      rcases lt_or_gt_of_ne hC with hC | hC
      · exact Or.inr (flip _ _ _ (by simpa using up2 (-C) (by linarith)))
      · exact Or.inl (up2 C hC)
    · exact Or.inl (up B C hB)
  · exact Or.inl (soon_pos hA)

theorem area_shift (a b : Pt) (q : P2) (e : ℚ) :
    area2 a b (shift q e) = area2 a b q + (b.y - a.y : ℚ) * e + (b.x - a.x : ℚ) * e ^ 2 := by
  unfold area2 shift; ring

theorem soon_side {a b : Pt} (h : a ≠ b) (q : P2) : (Soon fun e => 0 < area2 a b (shift q e)) ∨ Soon fun e => area2 a b (shift q e) < 0 := by
  simp only [area_shift]
  apply soon_sign
  by_contra hc
  push Not at hc
  apply h
  have h1 : (b.y : ℚ) = a.y := by linarith [hc.2.1]
  have h2 : (b.x : ℚ) = a.x := by linarith [hc.2.2]
  have h1 : b.y = a.y := by exact_mod_cast h1
  have h2 : b.x = a.x := by exact_mod_cast h2
  cases a; cases b; simp_all

theorem soon_left {a b : Pt} {q : P2} (h : 0 < area2 a b q) : Soon fun e => 0 < area2 a b (shift q e) := by
  simp only [area_shift]
  exact soon_pos h

/-! ### Exact arithmetic -/

theorem interior_left {a b c : Pt} (h : 0 < area2 a b (loc c)) (q : P2) :
    Interior ⟨c, b, a⟩ q ↔ 0 < area2 a b q ∧ 0 < area2 b c q ∧ 0 < area2 c a q := by
  unfold Interior
  simp only
  rw [area_swap b c, area_swap a b, area_swap c a]
  have e : area2 a b q + area2 b c q + area2 c a q = area2 a b (loc c) := by unfold area2 loc; ring
  constructor
  · rintro (⟨h1, h2, h3⟩ | ⟨h1, h2, h3⟩)
    · linarith
    · exact ⟨by linarith, by linarith, by linarith⟩
  · rintro ⟨h1, h2, h3⟩
    exact Or.inr ⟨by linarith, by linarith, by linarith⟩

theorem ne_of_area {a b c : Pt} (h : 0 < area2 a b (loc c)) : a ≠ c := by
  rintro rfl
  rw [area_aa] at h
  exact lt_irrefl _ h

theorem not_left_two (p a : Pt) (q : P2) : ¬ Left [p, a] q := by
  intro h
  have h1 := h (p, a) (by simp [edges])
  have h2 := h (a, p) (by simp [edges])
  simp only at h1 h2
  rw [area_swap] at h2
  linarith

/-- Triangles of the fan that own a location: one if the polygon owns it, else none. -/
theorem count_owns (q : P2) [∀ t, Decidable (Owns t q)] (p : Pt) : ∀ (l : List Pt) (a : Pt), TurnsLeft (p :: a :: l) →
    ((Soon fun e => Left (p :: a :: l) (shift q e)) ∧ ((fan (p :: a :: l)).map fun t => if Owns t q then 1 else 0).sum = 1) ∨
    ((Soon fun e => ¬ Left (p :: a :: l) (shift q e)) ∧ ((fan (p :: a :: l)).map fun t => if Owns t q then 1 else 0).sum = 0)
  | [], a, _ => Or.inr ⟨⟨1, one_pos, fun _ _ _ => not_left_two _ _ _⟩, by simp [fan_two]⟩
  | b :: l, a, H => by
    have hp := first_pos H
    have hO : Owns ⟨b, a, p⟩ q ↔ Soon fun e => 0 < area2 p a (shift q e) ∧ 0 < area2 a b (shift q e) ∧ 0 < area2 b p (shift q e) := by
      unfold Owns
      simp only [interior_left hp]
      rfl
    rw [fan_cons, List.map_cons, List.sum_cons]
    rcases count_owns q p l b (turns_tail H) with ⟨h1, h2⟩ | ⟨h1, h2⟩
    · left
      have hno : ¬ Owns ⟨b, a, p⟩ q := by
        rw [hO]
        intro h
        obtain ⟨e, -, k1, k2⟩ := (h1.and h).exists
        have := k1 (p, b) (by rw [edges_cons]; simp)
        simp only at this
        rw [area_swap] at this
        linarith [k2.2.2]
      rw [if_neg hno, h2]
      refine ⟨h1.mono fun e _ he => ?_, rfl⟩
      have hs : 0 < area2 p b (shift q e) := he (p, b) (by rw [edges_cons]; simp)
      exact (left_split H hs.ne').mpr (Or.inl he)
    · rw [h2]
      have s1 := soon_side (ne_of_area hp) q
      have sne : Soon fun e => area2 p b (shift q e) ≠ 0 := by
        rcases s1 with s1 | s1
        · exact s1.mono fun e _ he => he.ne'
        · exact s1.mono fun e _ he => he.ne
      by_cases h : Owns ⟨b, a, p⟩ q
      · left
        rw [if_pos h]
        rw [hO] at h
        refine ⟨(sne.and h).mono fun e _ he => (left_split H he.1).mpr (Or.inr he.2), rfl⟩
      · right
        rw [if_neg h]
        refine ⟨?_, rfl⟩
        have hab : p ≠ a := by rintro rfl; unfold area2 loc at hp; simp at hp
        have hbc : a ≠ b := by rintro rfl; rw [area_bb] at hp; exact lt_irrefl _ hp
        have key : Soon fun e => ¬ (0 < area2 p a (shift q e) ∧ 0 < area2 a b (shift q e) ∧ 0 < area2 b p (shift q e)) := by
          rcases soon_side hab q with k1 | k1
          rotate_left
          · exact k1.mono fun e _ he hh => by linarith [hh.1]
          rcases soon_side hbc q with k2 | k2
          rotate_left
          · exact k2.mono fun e _ he hh => by linarith [hh.2.1]
          rcases soon_side (ne_of_area hp).symm q with k3 | k3
          rotate_left
          · exact k3.mono fun e _ he hh => by linarith [hh.2.2]
          exact absurd (hO.mpr (k1.and (k2.and k3))) h
        refine ((h1.and key).and sne).mono fun e _ he hL => ?_
        rcases (left_split H he.2).mp hL with k | k
        · exact he.1.1 k
        · exact he.1.2 k

/-- The signed areas at the edges add up to the area of the polygon, which is positive. -/
theorem edges_area (p : Pt) (q : P2) : ∀ (l : List Pt) (a : Pt), TurnsLeft (p :: a :: l) → 0 ≤ ((edges (p :: a :: l)).map fun e => area2 e.1 e.2 q).sum
  | [], a, _ => by
    simp only [edges, List.nil_append, List.cons_append, List.zip_cons_cons, List.zip_nil_right, List.map_cons, List.map_nil, List.sum_cons, List.sum_nil]
    rw [area_swap a p]
    linarith
  | b :: l, a, H => by
    have := edges_area p q l b (turns_tail H)
    rw [edges_cons] at this ⊢
    simp only [List.cons_append, List.zip_cons_cons, List.map_cons, List.sum_cons] at this ⊢
    have hp := first_pos H
    have e : area2 p a q + area2 a b q = area2 p b q + area2 p a (loc b) := by unfold area2 loc; ring
    linarith

/-- A location is in the open polygon exactly if it is on the left of all edges. -/
theorem interior_iff_left {p a : Pt} {l : List Pt} (H : TurnsLeft (p :: a :: l)) (q : P2) : PolyInterior (p :: a :: l) q ↔ Left (p :: a :: l) q := by
  unfold PolyInterior Left
  constructor
  · rintro (h | h)
    · exact h
    · exfalso
      have h0 := edges_area p q l a H
      have neg : ∀ L : List (Pt × Pt), (∀ e ∈ L, area2 e.1 e.2 q < 0) → (L.map fun e => area2 e.1 e.2 q).sum ≤ 0 := by
        intro L
        induction L with
        | nil => simp
        | cons e L ih =>
          intro h
          have h1 := h e (by simp)
          have h2 := ih fun e he => h e (by simp [he])
          simp only [List.map_cons, List.sum_cons]
          linarith
      rw [edges_cons] at h0 h
      simp only [List.mem_cons, forall_eq_or_imp] at h
      simp only [List.map_cons, List.sum_cons] at h0
      linarith [h.1, neg _ h.2]
  · exact Or.inl

theorem polyOwns_iff {p a : Pt} {l : List Pt} (H : TurnsLeft (p :: a :: l)) (q : P2) :
    PolyOwns (p :: a :: l) q ↔ Soon fun e => Left (p :: a :: l) (shift q e) := by
  unfold PolyOwns
  simp only [interior_iff_left H]
  rfl

/-! ### Rounded arithmetic -/

theorem area_iori (a b c : Pt) : 0 < area2 a b (loc c) ↔ 0 < iori a b c := by
  rw [← iori_area]
  exact_mod_cast Iff.rfl

section
variable {fl : ℚ → ℚ} {x y : Int}

theorem vis_fan {P : Pt → Prop} (Q : Prec fl P) {a b c : Pt} (sa : P a) (sb : P b) (sc : P c) (h : 0 < area2 a b (loc c)) :
    (vis fl ⟨c, b, a⟩ x y : ℤ) = rsum fl x y a b c := by
  rw [vis_perm fl (t := ⟨a, b, c⟩) (t' := ⟨c, b, a⟩) (by simpa using List.reverse_perm [a, b, c])]
  exact vis_rsum Q sa sb sc ((area_iori _ _ _).mp h) x y

/-- The visits of the triangles of the fan add up to the crossings of the edges of the polygon. -/
theorem fan_crossings {P : Pt → Prop} (Q : Prec fl P) (p : Pt) : ∀ (l : List Pt) (a : Pt), TurnsLeft (p :: a :: l) → (∀ v ∈ p :: a :: l, P v) →
    (((fan (p :: a :: l)).map fun t => vis fl t x y).sum : ℕ) = ((edges (p :: a :: l)).map fun e => rc fl x y e.1 e.2).sum
  | [], a, _, _ => by
    simp only [fan_two, edges, List.nil_append, List.cons_append, List.zip_cons_cons, List.zip_nil_right, List.map_cons, List.map_nil, List.sum_cons, List.sum_nil]
    rw [rc_anti fl x y a p]
    simp
  | b :: l, a, H, S => by
    have ih := fan_crossings Q p l b (turns_tail H) fun v hv => S v (by simp at hv ⊢; tauto)
    rw [edges_cons] at ih ⊢
    rw [fan_cons]
    simp only [List.cons_append, List.zip_cons_cons, List.map_cons, List.sum_cons] at ih ⊢
    rw [Nat.cast_add, ih, vis_fan Q (S p (by simp)) (S a (by simp)) (S b (by simp)) (first_pos H)]
    unfold rsum
    rw [rc_anti fl x y b p]
    ring

end

/-- Two triangles of a fan never both visit a pixel. -/
theorem fan_disjoint {fl : ℚ → ℚ} (R : Rnd 53 fl) {x y : Int} {p a b u v : Pt} (S : ∀ q ∈ [p, a, b, u, v], Small q ∧ Fit x q)
    (h1 : 0 < area2 p a (loc b)) (h2 : 0 < area2 p u (loc v)) (k1 : 0 < area2 p b (loc u)) (k2 : 0 < area2 p a (loc u)) (k3 : 0 < area2 a b (loc u)) :
    vis fl ⟨b, a, p⟩ x y + vis fl ⟨v, u, p⟩ x y ≤ 1 := by
  have Q := prec_rnd R
  have sp := S p (by simp)
  have sa := S a (by simp)
  have sb := S b (by simp)
  have su := S u (by simp)
  have sv := S v (by simp)
  have v1 := vis_fan (x := x) (y := y) Q sp.1 sa.1 sb.1 h1
  have v2 := vis_fan (x := x) (y := y) Q sp.1 sb.1 su.1 k1
  have v3 := vis_fan (x := x) (y := y) Q sp.1 sa.1 su.1 k2
  have v4 := vis_fan (x := x) (y := y) Q sa.1 sb.1 su.1 k3
  have sum : rsum fl x y p a b + rsum fl x y p b u = rsum fl x y p a u + rsum fl x y a b u := by
    unfold rsum
    rw [rc_anti fl x y b p, rc_anti fl x y u a]
    ring
  have l1 := vis_le_one (fl := fl) (t := ⟨b, a, p⟩) x y
  have l2 := vis_le_one (fl := fl) (t := ⟨v, u, p⟩) x y
  by_contra hcon
  have e1 : vis fl ⟨b, a, p⟩ x y = 1 := by omega
  have e2 : vis fl ⟨v, u, p⟩ x y = 1 := by omega
  have l3 := vis_le_one (fl := fl) (t := ⟨u, a, p⟩) x y
  by_cases e3 : vis fl ⟨u, a, p⟩ x y = 1
  · have := pair_disjoint Q sp.1 su.1 sv.1 sa.1 ((area_iori _ _ _).mp h2) (by rw [← area_iori, ← area_rot, area_rot]; rw [area_rot']; exact k2) x y
    rw [vis_perm fl (t := ⟨v, u, p⟩) (t' := ⟨p, u, v⟩) (by simpa using List.reverse_perm [v, u, p])] at this
    rw [vis_perm fl (t := ⟨u, a, p⟩) (t' := ⟨u, p, a⟩) (by exact List.Perm.cons _ (List.Perm.swap _ _ _))] at this
    omega
  · have e4 : vis fl ⟨u, b, a⟩ x y ≠ 0 := by omega
    have nd : ∀ {a b c : Pt}, 0 < area2 a b (loc c) → NonDegenerate ⟨c, b, a⟩ := by
      intro a b c h
      unfold NonDegenerate
      simp only
      have : area2 c b (loc a) = - area2 a b (loc c) := by unfold area2 loc; ring
      rw [this]
      linarith
    have cl : ∀ {a b c : Pt} {q : P2}, 0 < area2 a b (loc c) → Closed ⟨c, b, a⟩ q → 0 ≤ area2 a b q ∧ 0 ≤ area2 b c q ∧ 0 ≤ area2 c a q := by
      intro a b c q h hc
      have e : area2 a b q + area2 b c q + area2 c a q = area2 a b (loc c) := by unfold area2 loc; ring
      unfold Closed at hc
      simp only at hc
      rw [area_swap b c, area_swap a b, area_swap c a] at hc
      rcases hc with ⟨h1, h2, h3⟩ | ⟨h1, h2, h3⟩
      · linarith
      · exact ⟨by linarith, by linarith, by linarith⟩
    obtain ⟨a1, a2, a3⟩ := cl h1 (vis_closed R (nd h1) ⟨sb.2, sb.1⟩ ⟨sa.2, sa.1⟩ ⟨sp.2, sp.1⟩ (y := y) (by omega))
    obtain ⟨b1, b2, b3⟩ := cl h2 (vis_closed R (nd h2) ⟨sv.2, sv.1⟩ ⟨su.2, su.1⟩ ⟨sp.2, sp.1⟩ (y := y) (by omega))
    obtain ⟨c1, c2, c3⟩ := cl k3 (vis_closed R (nd k3) ⟨su.2, su.1⟩ ⟨sb.2, sb.1⟩ ⟨sa.2, sa.1⟩ e4)
    set q := corner x y
    have i1 := area_bary p u a b u q
    rw [area_bb] at i1
    have i2 := area_bary b p a b u q
    have t : area2 a b q + area2 b u q + area2 u a q = area2 a b (loc u) := by unfold area2 loc; ring
    have n1 : area2 p u (loc a) = - area2 p a (loc u) := by unfold area2 loc; ring
    have n2 : area2 p u (loc b) = - area2 p b (loc u) := by unfold area2 loc; ring
    have n3 : area2 b p (loc u) = - area2 p b (loc u) := by unfold area2 loc; ring
    rw [n1, n2] at i1
    rw [area_aa, n3] at i2
    have j1 := mul_nonneg b1 k3.le
    have j2 := mul_nonneg c2 k2.le
    have j3 := mul_nonneg c3 k1.le
    have z1 : area2 b u q * area2 p a (loc u) = 0 := by linarith
    have z2 : area2 u a q * area2 p b (loc u) = 0 := by linarith
    have z1 := (mul_eq_zero.mp z1).resolve_right k2.ne'
    have z2 := (mul_eq_zero.mp z2).resolve_right k1.ne'
    rw [z1, z2] at i2 t
    have j4 := mul_nonneg a3 k3.le
    have t' : area2 a b q = area2 a b (loc u) := by linarith
    rw [t'] at i2
    have := mul_pos k3 k1
    linarith

/-- Triangles of the fan of a polygon. -/
theorem fan_mem {p : Pt} {t : Tri} : ∀ {l : List Pt} {a : Pt}, t ∈ fan (p :: a :: l) → ∃ u v, t = ⟨v, u, p⟩ ∧ [u, v].Sublist (a :: l)
  | [], a, h => by simp [fan_two] at h
  | b :: l, a, h => by
    rw [fan_cons, List.mem_cons] at h
    rcases h with rfl | h
    · exact ⟨a, b, rfl, by simp⟩
    · obtain ⟨u, v, e, hs⟩ := fan_mem h
      exact ⟨u, v, e, hs.trans (List.sublist_cons_self _ _)⟩

/-- No pixel is visited twice. -/
theorem fan_once {fl : ℚ → ℚ} (R : Rnd 53 fl) {x y : Int} (p : Pt) : ∀ (l : List Pt) (a : Pt), TurnsLeft (p :: a :: l) →
    (∀ q ∈ p :: a :: l, Small q ∧ Fit x q) → ((fan (p :: a :: l)).map fun t => vis fl t x y).sum ≤ 1
  | [], a, _, _ => by simp [fan_two]
  | b :: l, a, H, S => by
    have ih := fan_once R (x := x) (y := y) p l b (turns_tail H) fun v hv => S v (by simp at hv ⊢; tauto)
    rw [fan_cons, List.map_cons, List.sum_cons]
    have l1 := vis_le_one (fl := fl) (t := ⟨b, a, p⟩) x y
    by_cases e1 : vis fl ⟨b, a, p⟩ x y = 0
    · omega
    have zero : ∀ n ∈ (fan (p :: b :: l)).map fun t => vis fl t x y, n = 0 := by
      intro n hn
      obtain ⟨t, ht, rfl⟩ := List.mem_map.mp hn
      obtain ⟨u, v, rfl, hs⟩ := fan_mem ht
      have hp := first_pos H
      have h2 : 0 < area2 p u (loc v) := H p u v ((hs.cons a).cons_cons p)
      have hu : u ∈ b :: l := hs.subset (by simp)
      have hv : v ∈ b :: l := hs.subset (by simp)
      have S5 : ∀ q ∈ [p, a, b, u, v], Small q ∧ Fit x q := by
        intro q hq
        apply S
        simp only [List.mem_cons, List.not_mem_nil, or_false] at hq hu hv ⊢
        rcases hq with rfl | rfl | rfl | rfl | rfl <;> tauto
      by_cases hb : u = b
      · subst hb
        have := pair_disjoint (prec_rnd R) (S5 p (by simp)).1 (S5 u (by simp)).1 (S5 v (by simp)).1 (S5 a (by simp)).1
          ((area_iori _ _ _).mp h2) (by rw [← area_iori, area_rot']; exact hp) x y
        rw [vis_perm fl (t := ⟨v, u, p⟩) (t' := ⟨p, u, v⟩) (by simpa using List.reverse_perm [v, u, p]),
          vis_perm fl (t := ⟨u, a, p⟩) (t' := ⟨u, p, a⟩) (by exact List.Perm.cons _ (List.Perm.swap _ _ _))] at this
        omega
      · have hul : u ∈ l := by simpa [hb] using hu
        have hs1 := List.singleton_sublist.mpr hul
        have := fan_disjoint R (y := y) S5 hp h2 (H p b u (((hs1.cons_cons b).cons a).cons_cons p)) (H p a u (((hs1.cons b).cons_cons a).cons_cons p))
          (H a b u (((hs1.cons_cons b).cons_cons a).cons p))
        omega
    rw [List.sum_eq_zero zero]
    omega

theorem count_fan {fl : ℚ → ℚ} (hm : Monotone fl) (z : ℚ) (ps : List Pt) (x y : Int) :
    (DDAPolygon fl z ps).count (x, y) = ((fan ps).map fun t => vis fl t x y).sum := by
  unfold DDAPolygon
  rw [List.count_flatMap]
  congr 1
  refine List.map_congr_left fun t _ => ?_
  exact count_vis hm z t x y

/-- In exact arithmetic a polygon visits the pixels it owns. -/
theorem fan_exact {x y : Int} {p a : Pt} {l : List Pt} (H : TurnsLeft (p :: a :: l)) (S : ∀ q ∈ p :: a :: l, Fit x q) [Decidable (PolyOwns (p :: a :: l) (corner x y))] :
    ((fan (p :: a :: l)).map fun t => vis id t x y).sum = if PolyOwns (p :: a :: l) (corner x y) then 1 else 0 := by
  classical
  have e : ((fan (p :: a :: l)).map fun t => vis id t x y) = (fan (p :: a :: l)).map fun t => if Owns t (corner x y) then 1 else 0 := by
    refine List.map_congr_left fun t ht => ?_
    obtain ⟨u, v, rfl, hs⟩ := fan_mem ht
    exact vis_exact (S v (List.mem_cons_of_mem _ (hs.subset (by simp)))) (S u (List.mem_cons_of_mem _ (hs.subset (by simp)))) (S p (by simp))
  rw [e]
  have := polyOwns_iff H (corner x y)
  rcases count_owns (corner x y) p l a H with ⟨h1, h2⟩ | ⟨h1, h2⟩
  · rw [if_pos (this.mpr h1), h2]
  · rw [h2, if_neg]
    intro h
    obtain ⟨e, -, k1, k2⟩ := ((this.mp h).and h1).exists
    exact k2 k1

/-- With rounding a polygon visits the pixels in its interior. -/
theorem fan_interior {fl : ℚ → ℚ} (R : Rnd 53 fl) {x y : Int} {p a : Pt} {l : List Pt} (H : TurnsLeft (p :: a :: l))
    (S : ∀ q ∈ p :: a :: l, Small q ∧ Fit x q) (hq : Left (p :: a :: l) (corner x y)) :
    ((fan (p :: a :: l)).map fun t => vis fl t x y).sum = 1 := by
  classical
  have h1 := fan_crossings (x := x) (y := y) (prec_rnd R) p l a H fun q hq => (S q hq).1
  have h2 := fan_crossings (x := x) (y := y) prec_id p l a H fun q _ => trivial
  have e : ((edges (p :: a :: l)).map fun e => rc fl x y e.1 e.2) = (edges (p :: a :: l)).map fun e => rc id x y e.1 e.2 := by
    refine List.map_congr_left ?_
    rintro ⟨u, v⟩ he
    have hin : u ∈ p :: a :: l ∧ v ∈ p :: a :: l := by
      have := List.of_mem_zip he
      refine ⟨this.1, ?_⟩
      have h := this.2
      simp only [List.mem_append, List.mem_cons, List.not_mem_nil, or_false] at h ⊢
      tauto
    have k := hq _ he
    simp only at k ⊢
    have o1 : ori (toP u) (toP v) (corner x y) = area2 u v (corner x y) := by unfold ori area2 toP; ring
    have o2 : ori (toP v) (toP u) (corner x y) = area2 v u (corner x y) := by unfold ori area2 toP; ring
    rw [rc_cr (fun c d => ind_rnd R (S u hin.1).1 (S v hin.2).1 (S u hin.1).2 (S v hin.2).2 c d (by rw [o1]; exact k.ne'))
      (fun c d => ind_rnd R (S v hin.2).1 (S u hin.1).1 (S v hin.2).2 (S u hin.1).2 c d (by rw [o2, area_swap]; linarith)),
      rc_cr (fun c d => ind_exact (S u hin.1).2 (S v hin.2).2 c d) (fun c d => ind_exact (S v hin.2).2 (S u hin.1).2 c d)]
  rw [e, ← h2] at h1
  have h3 : ((fan (p :: a :: l)).map fun t => vis fl t x y).sum = ((fan (p :: a :: l)).map fun t => vis id t x y).sum := by exact_mod_cast h1
  rw [h3, fan_exact H fun q hq => (S q hq).2, if_pos]
  rw [polyOwns_iff H]
  exact Soon.all fun e he => soon_left (hq e he)

/-- The triangles of the fan are in the closed polygon. -/
theorem fan_in_closed {p : Pt} {q : P2} : ∀ {l : List Pt} {a : Pt}, TurnsLeft (p :: a :: l) → ∀ t ∈ fan (p :: a :: l), Closed t q →
    ∀ e ∈ edges (p :: a :: l), 0 ≤ area2 e.1 e.2 q
  | [], a, _, t, ht, _ => by simp [fan_two] at ht
  | b :: l, a, H, t, ht, hc => by
    have cl : ∀ {a b c : Pt}, 0 < area2 a b (loc c) → Closed ⟨c, b, a⟩ q → 0 ≤ area2 a b q ∧ 0 ≤ area2 b c q ∧ 0 ≤ area2 c a q := by
      intro a b c h hc
      have e : area2 a b q + area2 b c q + area2 c a q = area2 a b (loc c) := by unfold area2 loc; ring
      unfold Closed at hc
      simp only at hc
      rw [area_swap b c, area_swap a b, area_swap c a] at hc
      rcases hc with ⟨h1, h2, h3⟩ | ⟨h1, h2, h3⟩
      · linarith
      · exact ⟨by linarith, by linarith, by linarith⟩
    rw [fan_cons, List.mem_cons] at ht
    rcases ht with rfl | ht
    · obtain ⟨h1, h2, h3⟩ := cl (first_pos H) hc
      exact closed_of_tri H h1 h2 h3
    · have ih := fan_in_closed (turns_tail H) t ht hc
      rw [edges_cons] at ih
      simp only [List.mem_cons, forall_eq_or_imp] at ih
      obtain ⟨h1, h2⟩ := ih
      rw [edges_cons]
      simp only [List.cons_append, List.zip_cons_cons, List.mem_cons, forall_eq_or_imp]
      cases l with
      | nil => simp [fan_two] at ht
      | cons c l =>
        obtain ⟨e, m1, m2, m3⟩ := last_edge p (c :: l) b
        have k1 := h2 (b, c) (by simp)
        have k2 := h2 (e, p) m2
        have me := m3 (by simp)
        simp only at k1 k2 h1
        have a1 := first_pos H
        have a2 : 0 < area2 a b (loc c) := H a b c (by simp)
        have a3 : 0 < area2 p b (loc c) := H p b c (by simp)
        have a4 : 0 < area2 p b (loc e) := H p b e (((List.singleton_sublist.mpr me).cons_cons b |>.cons a).cons_cons p)
        have a5 : 0 < area2 p a (loc e) := H p a e (((List.singleton_sublist.mpr me).cons b |>.cons_cons a).cons_cons p)
        refine ⟨?_, ?_, h2⟩
        · have id1 : area2 p a q * area2 p b (loc e) = area2 p a (loc b) * area2 e p q + area2 p a (loc e) * area2 p b q := by
            unfold area2 loc; ring
          have := mul_nonneg a1.le k2
          have := mul_nonneg a5.le h1
          exact nonneg_of_mul_nonneg_left (by linarith : 0 ≤ area2 p a q * area2 p b (loc e)) a4
        · have id2 : area2 a b q * area2 p b (loc c) = area2 p a (loc b) * area2 b c q + area2 a b (loc c) * area2 p b q := by
            unfold area2 loc; ring
          have := mul_nonneg a1.le k1
          have := mul_nonneg a2.le h1
          exact nonneg_of_mul_nonneg_left (by linarith : 0 ≤ area2 a b q * area2 p b (loc c)) a3

/-! ### The other direction around -/

/-- The vertices in the opposite order, from the same first vertex. -/
def flip : List Pt → List Pt
  | [] => []
  | p :: l => p :: l.reverse

theorem turns_flip {ps : List Pt} (h : TurnsRight ps) : TurnsLeft (flip ps) := by
  cases ps with
  | nil => intro a b c hs; simp [flip] at hs
  | cons p l =>
    intro a b c hs
    unfold flip at hs
    have rev : ∀ {a b c : Pt}, [a, b, c].Sublist (p :: l) → 0 < area2 c b (loc a) := by
      intro a b c hs
      have := h a b c hs
      have e : area2 c b (loc a) = - area2 a b (loc c) := by unfold area2 loc; ring
      linarith
    rcases List.sublist_cons_iff.mp hs with k | ⟨r, e, k⟩
    · have := rev ((by simpa using k.reverse : [c, b, a].Sublist l).cons p)
      exact this
    · cases e
      have e : area2 p b (loc c) = - area2 p c (loc b) := by unfold area2 loc; ring
      have := h p c b ((by simpa using k.reverse : [c, b].Sublist l).cons_cons p)
      linarith

theorem zip_rev {α β : Type} {l : List α} {m : List β} (h : l.length = m.length) : l.reverse.zip m.reverse = (l.zip m).reverse := by
  induction l generalizing m with
  | nil => simp
  | cons a l ih =>
    cases m with
    | nil => simp at h
    | cons b m =>
      simp only [List.length_cons, Nat.add_right_cancel_iff] at h
      simp only [List.reverse_cons, List.zip_cons_cons]
      rw [List.zip_append (by simpa using h), ih h]
      rfl

theorem edges_flip (ps : List Pt) : edges (flip ps) = ((edges ps).map Prod.swap).reverse := by
  cases ps with
  | nil => rfl
  | cons p l =>
    have h := zip_rev (l := l ++ [p]) (m := p :: l) (by simp)
    have e : edges (flip (p :: l)) = (l ++ [p]).reverse.zip (p :: l).reverse := by
      simp [flip, edges]
    rw [e, h]
    congr 1
    unfold edges
    rw [List.zip_swap]

theorem zip_tail (l : List Pt) : l.zip l.tail = l.dropLast.zip l.tail := by
  induction l with
  | nil => rfl
  | cons a l ih =>
    cases l with
    | nil => rfl
    | cons b l =>
      simp only [List.tail_cons, List.dropLast_cons_cons, List.zip_cons_cons] at ih ⊢
      rw [ih]

theorem pairs_rev (l : List Pt) : l.reverse.zip l.reverse.tail = ((l.zip l.tail).map Prod.swap).reverse := by
  rw [zip_tail l.reverse, List.tail_reverse, List.dropLast_reverse, zip_rev (by simp), zip_tail l]
  congr 1
  rw [List.zip_swap]

theorem fan_flip (ps : List Pt) : fan (flip ps) = ((fan ps).map fun t => ⟨t.b, t.a, t.c⟩).reverse := by
  cases ps with
  | nil => rfl
  | cons p l =>
    unfold flip fan
    simp only
    rw [pairs_rev, List.map_reverse, List.map_map, List.map_map]
    rfl

theorem vis_flip {fl : ℚ → ℚ} {x y : Int} (ps : List Pt) : ((fan (flip ps)).map fun t => vis fl t x y).sum = ((fan ps).map fun t => vis fl t x y).sum := by
  rw [fan_flip, List.map_reverse, List.sum_reverse, List.map_map]
  congr 1
  refine List.map_congr_left fun t _ => ?_
  exact vis_perm fl (List.Perm.swap _ _ _) x y

theorem interior_flip (ps : List Pt) (q : P2) : PolyInterior (flip ps) q ↔ PolyInterior ps q := by
  unfold PolyInterior
  rw [edges_flip]
  simp only [List.mem_reverse, List.mem_map, forall_exists_index, and_imp, forall_apply_eq_imp_iff₂, Prod.fst_swap, Prod.snd_swap]
  have e : ∀ e : Pt × Pt, area2 e.2 e.1 q = - area2 e.1 e.2 q := fun e => area_swap _ _ _
  simp only [e, Left.neg_pos_iff, Left.neg_neg_iff]
  tauto

theorem closed_flip (ps : List Pt) (q : P2) : PolyClosed (flip ps) q ↔ PolyClosed ps q := by
  unfold PolyClosed
  rw [edges_flip]
  simp only [List.mem_reverse, List.mem_map, forall_exists_index, and_imp, forall_apply_eq_imp_iff₂, Prod.fst_swap, Prod.snd_swap]
  have e : ∀ e : Pt × Pt, area2 e.2 e.1 q = - area2 e.1 e.2 q := fun e => area_swap _ _ _
  simp only [e, Left.nonneg_neg_iff, Left.neg_nonpos_iff]
  tauto

theorem owns_flip (ps : List Pt) (q : P2) : PolyOwns (flip ps) q ↔ PolyOwns ps q := by
  unfold PolyOwns
  simp only [interior_flip]

theorem mem_flip (ps : List Pt) (v : Pt) : v ∈ flip ps ↔ v ∈ ps := by
  cases ps <;> simp [flip]

theorem length_flip (ps : List Pt) : (flip ps).length = ps.length := by
  cases ps <;> simp [flip]

/-- What holds of the count of visits, for both directions around. -/
theorem fan_all {fl : ℚ → ℚ} {x y : Int} {ps : List Pt} (h3 : 3 ≤ ps.length) (hc : StrictConvex ps) :
    (Rnd 53 fl → (∀ q ∈ ps, Small q ∧ Fit x q) → ((fan ps).map fun t => vis fl t x y).sum ≤ 1 ∧
      (PolyInterior ps (corner x y) → ((fan ps).map fun t => vis fl t x y).sum = 1) ∧
      (((fan ps).map fun t => vis fl t x y).sum ≠ 0 → PolyClosed ps (corner x y))) ∧
    ((∀ q ∈ ps, Fit x q) → (PolyOwns ps (corner x y) → ((fan ps).map fun t => vis id t x y).sum = 1) ∧
      (¬ PolyOwns ps (corner x y) → ((fan ps).map fun t => vis id t x y).sum = 0)) := by
  classical
  have left : ∀ ps : List Pt, 3 ≤ ps.length → TurnsLeft ps →
      (Rnd 53 fl → (∀ q ∈ ps, Small q ∧ Fit x q) → ((fan ps).map fun t => vis fl t x y).sum ≤ 1 ∧
      (PolyInterior ps (corner x y) → ((fan ps).map fun t => vis fl t x y).sum = 1) ∧
      (((fan ps).map fun t => vis fl t x y).sum ≠ 0 → PolyClosed ps (corner x y))) ∧
      ((∀ q ∈ ps, Fit x q) → (PolyOwns ps (corner x y) → ((fan ps).map fun t => vis id t x y).sum = 1) ∧
      (¬ PolyOwns ps (corner x y) → ((fan ps).map fun t => vis id t x y).sum = 0)) := by
    intro ps h3 H
    match ps, h3, H with
    | p :: a :: l, h3, H =>
      refine ⟨fun R S => ⟨fan_once R p l a H S, fun hi => fan_interior R H S ((interior_iff_left H _).mp hi), fun hv => ?_⟩, fun S => ?_⟩
      · have : ∃ t ∈ fan (p :: a :: l), vis fl t x y ≠ 0 := by
          by_contra hcon
          push Not at hcon
          apply hv
          apply List.sum_eq_zero
          intro n hn
          obtain ⟨t, ht, rfl⟩ := List.mem_map.mp hn
          exact hcon t ht
        obtain ⟨t, ht, hn⟩ := this
        obtain ⟨u, v, rfl, hs⟩ := fan_mem ht
        have su := S u (List.mem_cons_of_mem _ (hs.subset (by simp)))
        have sv := S v (List.mem_cons_of_mem _ (hs.subset (by simp)))
        have sp := S p (by simp)
        have hp : 0 < area2 p u (loc v) := H p u v (hs.cons_cons p)
        have nd : NonDegenerate ⟨v, u, p⟩ := by
          unfold NonDegenerate
          simp only
          have : area2 v u (loc p) = - area2 p u (loc v) := by unfold area2 loc; ring
          rw [this]
          linarith
        exact Or.inl (fan_in_closed H _ ht (vis_closed R nd ⟨sv.2, sv.1⟩ ⟨su.2, su.1⟩ ⟨sp.2, sp.1⟩ hn))
      · rw [fan_exact H S]
        exact ⟨fun h => if_pos h, fun h => if_neg h⟩
  rcases hc with hc | hc
  · exact left ps h3 hc
  · have := left (flip ps) (by rw [length_flip]; exact h3) (turns_flip hc)
    simpa only [vis_flip, interior_flip, closed_flip, owns_flip, mem_flip] using this

end Verif.Raster

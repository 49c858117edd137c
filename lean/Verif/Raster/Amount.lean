import Verif.Raster.Exact
import Mathlib.Data.Finset.Card

/-!
# Lattice points of a triangle, and the number of visited pixels
-/

namespace Verif.Raster

open Verif.Incr Verif.Float Verif.Tri Verif.Spec

/-- `q` is in the closed triangle `a b c` of positive orientation. -/
def InTri (a b c q : Pt) : Prop := 0 ≤ iori a b q ∧ 0 ≤ iori b c q ∧ 0 ≤ iori c a q

theorem iori_total (a b c q : Pt) : iori a b q + iori b c q + iori c a q = iori a b c := by unfold iori; ring

theorem iori_rot (a b c : Pt) : iori b c a = iori a b c := by unfold iori; ring

/-- Barycentric coordinates. -/
theorem bary (a b c q : Pt) : iori a b c * q.x = iori b c q * a.x + iori c a q * b.x + iori a b q * c.x ∧
    iori a b c * q.y = iori b c q * a.y + iori c a q * b.y + iori a b q * c.y := by
  unfold iori; constructor <;> ring

/-- Points with two zero coordinates are vertices. -/
theorem bary_vertex {a b c q : Pt} (h : 0 < iori a b c) (h1 : iori b c q = 0) (h2 : iori c a q = 0) : q = c := by
  have t := iori_total a b c q
  obtain ⟨ex, ey⟩ := bary a b c q
  rw [h1, h2, show iori a b q = iori a b c by omega] at ex ey
  have x : q.x = c.x := mul_left_cancel₀ h.ne' (by linarith)
  have y : q.y = c.y := mul_left_cancel₀ h.ne' (by linarith)
  cases q; cases c; simp_all

theorem inTri_rot {a b c q : Pt} : InTri b c a q ↔ InTri a b c q := by unfold InTri; tauto

theorem inTri_a {a b c : Pt} (h : 0 < iori a b c) : InTri a b c a := by
  refine ⟨by unfold iori; ring_nf; rfl, by rw [iori_rot]; exact h.le, by unfold iori; ring_nf; rfl⟩

theorem inTri_b {a b c : Pt} (h : 0 < iori a b c) : InTri a b c b := by
  rw [← inTri_rot]; exact inTri_a (by rwa [iori_rot])

theorem inTri_c {a b c : Pt} (h : 0 < iori a b c) : InTri a b c c := by
  rw [← inTri_rot]; exact inTri_b (by rwa [iori_rot])

theorem ne_of_iori {a b c : Pt} (h : 0 < iori a b c) : a ≠ b ∧ b ≠ c ∧ c ≠ a := by
  refine ⟨?_, ?_, ?_⟩ <;> rintro rfl <;> unfold iori at h <;> ring_nf at h <;> exact absurd h (lt_irrefl _)

/-- The number of lattice points is at most the doubled area plus two. -/
def Few (a b c : Pt) : Prop := ∀ S : Finset Pt, (∀ q ∈ S, InTri a b c q) → (S.card : ℤ) ≤ iori a b c + 2

theorem few_rot {a b c : Pt} (h : Few b c a) : Few a b c := by
  intro S hS
  have := h S (fun q hq => inTri_rot.mpr (hS q hq))
  rwa [iori_rot] at this

/-- A lattice point on an edge splits the triangle. -/
theorem few_edge {a b c q : Pt} (hq : InTri a b c q) (hab : iori a b q = 0) (h1 : 0 < iori b c q) (h2 : 0 < iori c a q)
    (f1 : Few a q c) (f2 : Few q b c) : Few a b c := by
  intro S hS
  have t := iori_total a b c q
  have hD : 0 < iori a b c := by omega
  let S' := insert q (insert c S)
  have hS' : ∀ p ∈ S', InTri a b c p := by
    intro p hp
    simp only [S', Finset.mem_insert] at hp
    rcases hp with rfl | rfl | hp
    exacts [hq, inTri_c hD, hS p hp]
  have d1 : iori a q c = iori c a q := by unfold iori; ring
  have d2 : iori q b c = iori b c q := by unfold iori; ring
  let A := S'.filter fun p => 0 ≤ iori q c p
  let B := S'.filter fun p => iori q c p ≤ 0
  obtain ⟨bx, bY⟩ := bary a b c q
  rw [hab, zero_mul, add_zero] at bx bY
  have e1 : ∀ p, iori a b c * iori a q p = iori c a q * iori a b p := by
    intro p
    have : iori a b c * iori a q p = (iori a b c * q.x - iori a b c * a.x) * (p.y - a.y) - (iori a b c * q.y - iori a b c * a.y) * (p.x - a.x) := by
      unfold iori; ring
    rw [this, bx, bY, ← t, hab]
    unfold iori; ring
  have e2 : ∀ p, iori a b c * iori q b p = iori b c q * iori a b p := by
    intro p
    have : iori a b c * iori q b p = (iori a b c * b.x - iori a b c * q.x) * (p.y - b.y) - (iori a b c * b.y - iori a b c * q.y) * (p.x - b.x) := by
      unfold iori; ring
    rw [this, bx, bY, ← t, hab]
    unfold iori; ring
  have hA := f1 A (by
    intro p hp
    obtain ⟨hp, k⟩ := Finset.mem_filter.mp hp
    obtain ⟨g1, g2, g3⟩ := hS' p hp
    refine ⟨?_, k, g3⟩
    exact nonneg_of_mul_nonneg_right (by rw [e1]; exact mul_nonneg h2.le g1) hD)
  have hB := f2 B (by
    intro p hp
    obtain ⟨hp, k⟩ := Finset.mem_filter.mp hp
    obtain ⟨g1, g2, g3⟩ := hS' p hp
    refine ⟨?_, g2, ?_⟩
    · exact nonneg_of_mul_nonneg_right (by rw [e2]; exact mul_nonneg h1.le g1) hD
    · have : iori c q p = - iori q c p := by unfold iori; ring
      omega)
  have hu : A ∪ B = S' := by
    ext p
    simp only [A, B, Finset.mem_union, Finset.mem_filter]
    constructor
    · tauto
    · intro h; rcases le_total 0 (iori q c p) with k | k <;> tauto
  have hqc : q ≠ c := by rintro rfl; unfold iori at h2; ring_nf at h2; exact absurd h2 (lt_irrefl _)
  have hi : ({q, c} : Finset Pt) ⊆ A ∩ B := by
    have z1 : iori q c q = 0 := by unfold iori; ring
    have z2 : iori q c c = 0 := by unfold iori; ring
    intro p hp
    simp only [Finset.mem_insert, Finset.mem_singleton] at hp
    rcases hp with rfl | rfl <;> simp [A, B, S', z1, z2]
  have c1 := Finset.card_union_add_card_inter A B
  have c2 := Finset.card_le_card hi
  rw [Finset.card_pair hqc] at c2
  rw [hu] at c1
  have c3 : S.card ≤ S'.card := Finset.card_le_card (by intro p hp; simp [S', hp])
  have : (S.card : ℤ) + 2 ≤ A.card + B.card := by exact_mod_cast (by omega)
  omega

/-- A lattice point inside splits the triangle. -/
theorem few_inside {a b c q : Pt} (h1 : 0 < iori a b q) (h2 : 0 < iori b c q) (h3 : 0 < iori c a q)
    (f1 : Few a b q) (f2 : Few b c q) (f3 : Few c a q) : Few a b c := by
  intro S hS
  have t := iori_total a b c q
  have hD : 0 < iori a b c := by omega
  let S' := insert q (insert a (insert b (insert c S)))
  have hS' : ∀ p ∈ S', InTri a b c p := by
    intro p hp
    simp only [S', Finset.mem_insert] at hp
    rcases hp with rfl | rfl | rfl | rfl | hp
    exacts [⟨h1.le, h2.le, h3.le⟩, inTri_a hD, inTri_b hD, inTri_c hD, hS p hp]
  have an : ∀ u v p : Pt, iori u v p = - iori v u p := by intro u v p; unfold iori; ring
  have z1 : ∀ u v : Pt, iori u v u = 0 := by intro u v; unfold iori; ring
  have z2 : ∀ u v : Pt, iori u v v = 0 := by intro u v; unfold iori; ring
  let A := S'.filter fun p => 0 ≤ iori q a p ∧ iori q b p ≤ 0
  let B := S'.filter fun p => 0 ≤ iori q b p ∧ iori q c p ≤ 0
  let C := S'.filter fun p => 0 ≤ iori q c p ∧ iori q a p ≤ 0
  have hA := f1 A (by
    intro p hp
    obtain ⟨hp, k1, k2⟩ := Finset.mem_filter.mp hp
    have := an b q p
    exact ⟨(hS' p hp).1, by omega, k1⟩)
  have hB := f2 B (by
    intro p hp
    obtain ⟨hp, k1, k2⟩ := Finset.mem_filter.mp hp
    have := an c q p
    exact ⟨(hS' p hp).2.1, by omega, k1⟩)
  have hC := f3 C (by
    intro p hp
    obtain ⟨hp, k1, k2⟩ := Finset.mem_filter.mp hp
    have := an a q p
    exact ⟨(hS' p hp).2.2, by omega, k1⟩)
  have rel : ∀ p, iori b c q * iori q a p + iori c a q * iori q b p + iori a b q * iori q c p = 0 := by
    intro p; unfold iori; ring
  have hu : (A ∪ B) ∪ C = S' := by
    ext p
    simp only [A, B, C, Finset.mem_union, Finset.mem_filter]
    constructor
    · tauto
    · intro h
      have r := rel p
      by_contra hc
      have k1 : ¬ (0 ≤ iori q a p ∧ iori q b p ≤ 0) := by tauto
      have k2 : ¬ (0 ≤ iori q b p ∧ iori q c p ≤ 0) := by tauto
      have k3 : ¬ (0 ≤ iori q c p ∧ iori q a p ≤ 0) := by tauto
      generalize iori q a p = x at *
      generalize iori q b p = y at *
      generalize iori q c p = z at *
      rcases le_or_gt 0 x with hx | hx
      · have hy : 0 < y := by by_contra hh; exact k1 ⟨hx, by omega⟩
        have hz : 0 < z := by by_contra hh; exact k2 ⟨hy.le, by omega⟩
        have := mul_pos h3 hy
        have := mul_pos h1 hz
        have := mul_nonneg h2.le hx
        omega
      · have hz : z < 0 := by by_contra hh; exact k3 ⟨by omega, hx.le⟩
        have hy : y < 0 := by by_contra hh; exact k2 ⟨by omega, hz.le⟩
        have := mul_neg_of_pos_of_neg h3 hy
        have := mul_neg_of_pos_of_neg h1 hz
        have := mul_neg_of_pos_of_neg h2 hx
        omega
  have n1 := ne_of_iori h1
  have n2 := ne_of_iori h2
  have n3 := ne_of_iori h3
  have m1 : iori q b a = - iori a b q := by unfold iori; ring
  have m2 : iori q a b = iori a b q := by unfold iori; ring
  have m3 : iori q c b = - iori b c q := by unfold iori; ring
  have m4 : iori q b c = iori b c q := by unfold iori; ring
  have m5 : iori q a c = - iori c a q := by unfold iori; ring
  have m6 : iori q c a = iori c a q := by unfold iori; ring
  have i1 : ({q, b} : Finset Pt) ⊆ A ∩ B := by
    intro p hp
    simp only [Finset.mem_insert, Finset.mem_singleton] at hp
    rcases hp with rfl | rfl <;> simp [A, B, S', z1, z2, m2, m3, h1.le, h2.le]
  have i2 : ({q, a} : Finset Pt) ⊆ (A ∪ B) ∩ C := by
    intro p hp
    simp only [Finset.mem_insert, Finset.mem_singleton] at hp
    rcases hp with rfl | rfl <;> simp [A, B, C, S', z1, z2, m1, m6, h1.le, h3.le]
  have c1 := Finset.card_union_add_card_inter A B
  have c2 := Finset.card_union_add_card_inter (A ∪ B) C
  have c3 := Finset.card_le_card i1
  have c4 := Finset.card_le_card i2
  rw [Finset.card_pair n1.2.1.symm] at c3
  rw [Finset.card_pair n1.2.2] at c4
  rw [hu] at c2
  have c5 : S.card ≤ S'.card := Finset.card_le_card (by intro p hp; simp [S', hp])
  have : (S.card : ℤ) + 4 ≤ A.card + B.card + C.card := by exact_mod_cast (by omega)
  omega

theorem few (n : Nat) : ∀ {a b c : Pt}, iori a b c = n → 0 < iori a b c → Few a b c := by
  induction n using Nat.strong_induction_on with
  | _ n ih =>
    intro a b c hn hD
    by_cases hex : ∃ q, InTri a b c q ∧ q ≠ a ∧ q ≠ b ∧ q ≠ c
    · obtain ⟨q, hq, qa, qb, qc⟩ := hex
      have t := iori_total a b c q
      have go : ∀ {u v w : Pt}, 0 < iori u v w → iori u v w < iori a b c → Few u v w := by
        intro u v w h1 h2
        exact ih (iori u v w).toNat (by omega) (by omega) h1
      have va : ¬ (iori a b q = 0 ∧ iori c a q = 0) := fun h => qa (bary_vertex (a := b) (b := c) (c := a) (by rwa [iori_rot]) h.2 h.1)
      have vb : ¬ (iori a b q = 0 ∧ iori b c q = 0) := fun h => qb (bary_vertex (a := c) (b := a) (c := b) (by rwa [← iori_rot]) h.1 h.2)
      have vc : ¬ (iori b c q = 0 ∧ iori c a q = 0) := fun h => qc (bary_vertex hD h.1 h.2)
      have hq' := hq
      obtain ⟨g1, g2, g3⟩ := hq'
      have s : ∀ u v w : Pt, iori u w v = - iori u v w := by intro u v w; unfold iori; ring
      have r : ∀ u v w : Pt, iori v w u = iori u v w := fun u v w => iori_rot u v w
      by_cases k1 : iori a b q = 0
      · have d1 : iori a q c = iori c a q := by unfold iori; ring
        have d2 : iori q b c = iori b c q := by unfold iori; ring
        exact few_edge hq k1 (by omega) (by omega) (go (by omega) (by omega)) (go (by omega) (by omega))
      · by_cases k2 : iori b c q = 0
        · have d1 : iori b q a = iori a b q := by unfold iori; ring
          have d2 : iori q c a = iori c a q := by unfold iori; ring
          exact few_rot (few_edge (inTri_rot.mpr hq) k2 (by omega) (by omega) (go (by omega) (by omega)) (go (by omega) (by omega)))
        · by_cases k3 : iori c a q = 0
          · have d1 : iori c q b = iori b c q := by unfold iori; ring
            have d2 : iori q a b = iori a b q := by unfold iori; ring
            exact few_rot (few_rot (few_edge (inTri_rot.mpr (inTri_rot.mpr hq)) k3 (by omega) (by omega) (go (by omega) (by omega)) (go (by omega) (by omega))))
          · exact few_inside (q := q) (by omega) (by omega) (by omega) (go (by omega) (by omega)) (go (by omega) (by omega)) (go (by omega) (by omega))
    · intro S hS
      have hsub : S ⊆ {a, b, c} := by
        intro q hq
        simp only [Finset.mem_insert, Finset.mem_singleton]
        by_contra hh
        push Not at hh
        exact hex ⟨q, hS q hq, hh⟩
      have := (Finset.card_le_card hsub).trans Finset.card_le_three
      omega

/-- A row in which an edge starts. -/
theorem edgeAt_start {fl : ℚ → ℚ} (R : Rnd 53 fl) {a : Pt} (sa : Small a) (b : Pt) : trunc (edgeAt fl a b a.y) = a.x := by
  unfold edgeAt madd
  rw [sub_self, Int.cast_zero, mul_zero, R.zero, zero_add, R.int (sa.1.trans (by norm_num)), trunc_int]

/-- Two lattice points of the triangle decide about no visited pixel. -/
theorem unvisited {fl : ℚ → ℚ} (R : Rnd 53 fl) {t : Tri} (s : AllT Small t) (hn : NonDegenerate t) :
    ∃ u v : Pt, u ≠ v ∧ u ∈ [t.a, t.b, t.c] ∧ v ∈ [t.a, t.b, t.c] ∧
      ∀ x y, vis fl t x y ≠ 0 → (⟨x + 1, y⟩ : Pt) ≠ u ∧ (⟨x + 1, y⟩ : Pt) ≠ v := by
  obtain ⟨o1, o2⟩ := sortY_sorted t
  have hp := sortY_perm t
  have sm : ∀ p ∈ [t.a, t.b, t.c], Small p := by
    intro p hp
    simp only [List.mem_cons, List.not_mem_nil, or_false] at hp
    rcases hp with rfl | rfl | rfl
    exacts [s.1, s.2.1, s.2.2]
  have hne : (sortY t).2.2.y ≠ (sortY t).1.y := by
    intro h
    have e : t.a.y = t.b.y ∧ t.b.y = t.c.y := by
      have : ∀ p ∈ [t.a, t.b, t.c], p.y = (sortY t).1.y := by
        intro p k
        rw [← hp.mem_iff] at k
        simp only [List.mem_cons, List.not_mem_nil, or_false] at k
        rcases k with rfl | rfl | rfl <;> omega
      have a := this t.a (by simp)
      have b := this t.b (by simp)
      have c := this t.c (by simp)
      omega
    apply hn
    unfold area2 loc
    rw [e.1, e.2]; simp
  unfold vis
  generalize sortY t = p at *
  obtain ⟨p0, p1, p2⟩ := p
  simp only at *
  have m0 : p0 ∈ [t.a, t.b, t.c] := hp.mem_iff.mp (by simp)
  have m1 : p1 ∈ [t.a, t.b, t.c] := hp.mem_iff.mp (by simp)
  have m2 : p2 ∈ [t.a, t.b, t.c] := hp.mem_iff.mp (by simp)
  have top : ∀ x y, sorted3 fl p0 p1 p2 x y ≠ 0 → (⟨x + 1, y⟩ : Pt) ≠ p0 := by
    rintro x y hv rfl
    apply hv
    unfold sorted3
    simp only at *
    split_ifs <;> first | rfl | omega
  by_cases h12 : p1.y = p2.y
  · by_cases hx : p2.x < p1.x
    · refine ⟨p0, p2, ?_, m0, m2, fun x y hv => ⟨top x y hv, ?_⟩⟩
      · rintro rfl; exact hne rfl
      · rintro rfl
        apply hv
        unfold sorted3 between
        simp only at *
        have := edgeAt_start R (sm _ m2) p0
        simp only at this
        rw [if_pos h12, if_pos hx, this]
        unfold span
        split_ifs <;> first | rfl | omega
    · refine ⟨p0, p1, ?_, m0, m1, fun x y hv => ⟨top x y hv, ?_⟩⟩
      · rintro rfl; omega
      · rintro rfl
        apply hv
        unfold sorted3 between
        simp only at *
        have := edgeAt_start R (sm _ m1) p0
        simp only at this
        rw [if_pos h12, if_neg hx, this]
        unfold span
        split_ifs <;> first | rfl | omega
  · refine ⟨p0, p2, ?_, m0, m2, fun x y hv => ⟨top x y hv, ?_⟩⟩
    · rintro rfl; exact hne rfl
    · rintro rfl
      apply hv
      unfold sorted3 between
      simp only at *
      have e0 := edgeAt_start R (sm _ m2) p0
      have e1 := edgeAt_start R (sm _ m2) p1
      simp only at e0 e1
      rw [if_neg h12, if_pos (by omega), e0, e1]
      unfold span
      split_ifs <;> first | rfl | omega

end Verif.Raster

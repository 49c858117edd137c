import Verif.Alg.PolyFun
import Verif.Alg.TriFun
import Mathlib.Algebra.BigOperators.Fin

/-! # C91: the hash codes of the caches -/

namespace Verif.Props

open Verif.Tri Verif.Spec Verif.Alg
open Verif.Incr hiding Entry

/-- Sum of the x coordinates of a triangle, and of the y coordinates. -/
def sumX (t : Tri) : Int := t.a.x + t.b.x + t.c.x
def sumY (t : Tri) : Int := t.a.y + t.b.y + t.c.y

/-- The vertices are in the `w` x `h` image. -/
def TriIn (w h : Nat) (t : Tri) : Prop := ∀ v, IsVertex t v → 0 ≤ v.x ∧ v.x ≤ w ∧ 0 ≤ v.y ∧ v.y ≤ h

variable {w h : Nat}

theorem TriIn.sums {t : Tri} (ht : TriIn w h t) : 0 ≤ sumX t ∧ sumX t ≤ 3 * w ∧ 0 ≤ sumY t ∧ sumY t ≤ 3 * h := by
  have a := ht t.a (Or.inl rfl); have b := ht t.b (Or.inr (Or.inl rfl)); have c := ht t.c (Or.inr (Or.inr rfl))
  unfold sumX sumY
  omega

theorem triHash_eq {t : Tri} (hw : w ≤ 32767) (hh : h ≤ 32767) (ht : TriIn w h t) : (triHash t : Int) = 9409 + 97 * sumX t + sumY t := by
  have := ht.sums
  unfold sumX sumY at *
  unfold triHash
  omega

/-- **C91**: two triangles of the image have the same hash exactly if `97 X + Y` agrees, `X` and `Y` being the sums of their coordinates.  In particular the
order of the vertices does not matter, although `Equals` distinguishes it. -/
theorem c91_triangle {t t' : Tri} (hw : w ≤ 32767) (hh : h ≤ 32767) (ht : TriIn w h t) (ht' : TriIn w h t') :
    triHash t = triHash t' ↔ 97 * sumX t + sumY t = 97 * sumX t' + sumY t' := by
  have a := triHash_eq hw hh ht
  have b := triHash_eq hw hh ht'
  omega

/-- **C91**: however large the cache of `2^k` entries is, triangles of a `w` x `h` image use at most `291 w + 3 h + 1` of them. -/
theorem c91_slots (hw : w ≤ 32767) (hh : h ≤ 32767) (k : Nat) :
    ∃ S : Finset Nat, S.card ≤ 291 * w + 3 * h + 1 ∧ ∀ t, TriIn w h t → indexOf (triHash t) (2 ^ k) ∈ S := by
  refine ⟨(Finset.range (291 * w + 3 * h + 1)).image fun i => indexOf (9409 + i) (2 ^ k), Finset.card_image_le.trans (by simp), fun t ht => ?_⟩
  have a := triHash_eq hw hh ht
  have b := ht.sums
  refine Finset.mem_image.mpr ⟨(97 * sumX t + sumY t).toNat, ?_, ?_⟩
  · rw [Finset.mem_range]; omega
  · congr 1; omega

/-- The value at 97 of the polynomial with the given coefficients, the constant one last. -/
def value97 (cs : List Int) : Int := ∑ i ∈ Finset.range cs.length, cs.getD i 0 * 97 ^ (cs.length - 1 - i)

theorem getD_left (cs : List Int) (c : Int) {i : Nat} (hi : i < cs.length) : (cs ++ [c]).getD i 0 = cs.getD i 0 := by
  rw [List.getD_eq_getElem?_getD, List.getD_eq_getElem?_getD, List.getElem?_append_left hi]

theorem value97_append (cs : List Int) (c : Int) : value97 (cs ++ [c]) = value97 cs * 97 + c := by
  unfold value97
  rw [List.length_append, List.length_singleton, Finset.sum_range_succ, Finset.sum_mul]
  congr 1
  · refine Finset.sum_congr rfl fun i hi => ?_
    rw [Finset.mem_range] at hi
    have e : cs.length + 1 - 1 - i = (cs.length - 1 - i) + 1 := by omega
    rw [e, pow_succ, mul_assoc, getD_left cs c hi]
  · simp

theorem fold97 (cs : List Int) : cs.foldl (fun (h : Int) c => (h * 97 + c) % 2 ^ 64) 1 = value97 (1 :: cs) % 2 ^ 64 := by
  induction cs using List.reverseRecOn with
  | nil => decide
  | append_singleton l c ih =>
    rw [List.foldl_append, List.foldl_cons, List.foldl_nil, ih, ← List.cons_append, value97_append]
    simp only [Int.add_emod, Int.mul_emod, Int.emod_emod_of_dvd, dvd_refl]

/-- **C91**: the hash of a polygon is the value at 97 of the polynomial with the coefficients 1 and the coordinates, modulo 2^64. -/
theorem c91_polygon {ps : List Pt} (h16 : ∀ p ∈ ps, I16 p) : (polyHash ps : Int) = value97 (1 :: ps.flatMap fun p => [p.x, p.y]) % 2 ^ 64 := by
  have e : coords16 ps = ps.flatMap fun p => [p.x, p.y] := by
    unfold coords16
    refine List.flatMap_congr fun p hp => ?_
    obtain ⟨a1, a2, a3, a4⟩ := h16 p hp
    rw [w16_id (by omega) (by omega), w16_id (by omega) (by omega)]
  unfold polyHash
  rw [e, fold97, Int.toNat_of_nonneg (Int.emod_nonneg _ (by norm_num))]

/-- **C91**: moving one vertex by (1, -97) does not change the hash. -/
theorem c91_polygon_collide (l r : List Pt) {x y : Int} (h16 : I16 ⟨x, y⟩) (h16' : I16 ⟨x + 1, y - 97⟩) :
    polyHash (l ++ ⟨x + 1, y - 97⟩ :: r) = polyHash (l ++ ⟨x, y⟩ :: r) := by
  obtain ⟨a1, a2, a3, a4⟩ := h16
  obtain ⟨b1, b2, b3, b4⟩ := h16'
  simp only at a1 a2 a3 a4 b1 b2 b3 b4
  unfold polyHash coords16
  simp only [List.flatMap_append, List.flatMap_cons, List.foldl_append, List.foldl_cons, List.foldl_nil]
  rw [w16_id (by omega) (by omega), w16_id (by omega) (by omega), w16_id (by omega) (by omega), w16_id (by omega) (by omega)]
  congr 2
  omega

/-- Two different triangles of a 100 x 200 image with the same hash. -/
example : TriIn 100 200 ⟨⟨0, 150⟩, ⟨50, 20⟩, ⟨99, 130⟩⟩ ∧ TriIn 100 200 ⟨⟨1, 53⟩, ⟨50, 20⟩, ⟨99, 130⟩⟩ ∧
    triHash ⟨⟨0, 150⟩, ⟨50, 20⟩, ⟨99, 130⟩⟩ = triHash ⟨⟨1, 53⟩, ⟨50, 20⟩, ⟨99, 130⟩⟩ := by
  have h1 : TriIn 100 200 ⟨⟨0, 150⟩, ⟨50, 20⟩, ⟨99, 130⟩⟩ := by rintro v (rfl | rfl | rfl) <;> norm_num
  have h2 : TriIn 100 200 ⟨⟨1, 53⟩, ⟨50, 20⟩, ⟨99, 130⟩⟩ := by rintro v (rfl | rfl | rfl) <;> norm_num
  exact ⟨h1, h2, (c91_triangle (by norm_num) (by norm_num) h1 h2).mpr (by decide)⟩

/-- The hash of a polygon of three vertices. -/
example : (polyHash [⟨1, 2⟩, ⟨3, 4⟩, ⟨-5, 6⟩] : Int) = 97 ^ 6 + 97 ^ 5 + 2 * 97 ^ 4 + 3 * 97 ^ 3 + 4 * 97 ^ 2 - 5 * 97 + 6 := by
  rw [c91_polygon (by unfold I16; decide)]; decide

example : polyHash [⟨1, 2⟩, ⟨4, -93⟩, ⟨-5, 6⟩] = polyHash [⟨1, 2⟩, ⟨3, 4⟩, ⟨-5, 6⟩] :=
  c91_polygon_collide [⟨1, 2⟩] [⟨-5, 6⟩] (x := 3) (y := 4) (by unfold I16; decide) (by unfold I16; decide)

end Verif.Props

import Verif.Incr.Grid
import Verif.Incr.Facts

/-!
# The float32 grid lists every triangle it has to list

For images up to 1925 pixels on the longer side (float32), the boxes computed from the rounded
circumcircle cover every image point of the closed circumdisc.  `AxisOK` says what is needed of the
rounded centre and radius along one axis; `axis_rnd` derives it from the relative error alone,
`axis_ieee` (`Incr/GridIEEE.lean`) from the spacing of float32 numbers.
-/

namespace Verif.Incr

open Verif.Tri Verif.Float Verif.Spec

/-! ### Where a circle without bounding vertices can be -/

/-- Bounds on the centre of a circle that contains an image point and no bounding vertex; `(s, t)`
is the point relative to the middle, `(X, Y)` the centre relative to the point. -/
theorem Ylow {n s t X Y : ℚ} (hn : 2 ≤ n) (s1 : -(n+1)/2 ≤ s) (s2 : s ≤ n/2) (t1 : -(n+1)/2 ≤ t) (t2 : t ≤ n/2)
  (hA : 2 * (X * (-2*n-s) + Y * (-n-t)) ≤ (-2*n-s)^2 + (-n-t)^2)
  (hC : 2 * (X * (2*n-s) + Y * (-n-t)) ≤ (2*n-s)^2 + (-n-t)^2) : -(17/4*n+8) ≤ Y := by
  have h1 : 0 ≤ 2*n-s := by linarith
  have h2 : 0 ≤ 2*n+s := by linarith
  have h3 := mul_le_mul_of_nonneg_left hA h1
  have h4 := mul_le_mul_of_nonneg_left hC h2
  have key : 4*n*(2*(-Y)*(n+t)) ≤ 4*n*((4*n^2-s^2) + (n+t)^2) := by nlinarith
  have key2 : 2*(-Y)*(n+t) ≤ (4*n^2-s^2) + (n+t)^2 := le_of_mul_le_mul_left key (by linarith)
  by_contra hc
  have hc := not_le.mp hc
  have v1 : (n-1)/2 ≤ n+t := by linarith
  have v2 : n+t ≤ 2*n := by linarith
  nlinarith [mul_nonneg (sub_nonneg.mpr v1) (sub_nonneg.mpr v2), sq_nonneg s]

theorem Xhigh {n s t X Y : ℚ} (hn : 2 ≤ n) (s1 : -(n+1)/2 ≤ s) (s2 : s ≤ (n+1)/2) (t1 : -(n+1)/2 ≤ t) (t2 : t ≤ n/2)
  (hB : 2 * (X * (-s) + Y * (2*n-t)) ≤ (-s)^2 + (2*n-t)^2)
  (hC : 2 * (X * (2*n-s) + Y * (-n-t)) ≤ (2*n-s)^2 + (-n-t)^2) : X ≤ 4*n+8 := by
  have h1 : 0 ≤ n+t := by linarith
  have h2 : 0 ≤ 2*n-t := by linarith
  have h3 := mul_le_mul_of_nonneg_left hB h1
  have h4 := mul_le_mul_of_nonneg_left hC h2
  have hsq : s^2 ≤ ((n+1)/2)^2 := by nlinarith
  have hsqn := mul_le_mul_of_nonneg_left hsq (by linarith : 0 ≤ 3*n)
  have hfn := mul_nonneg (by linarith : 0 ≤ 3*n) (sq_nonneg (n/2-t))
  have key : n*(2*X*(4*n-2*t-3*s)) ≤ n*(27/4*n^2+3*((n+1)/2)^2+4*n*(2*n-t)-4*(2*n-t)*s) := by
    nlinarith only [h3, h4, hsqn, hfn]
  have key2 := le_of_mul_le_mul_left key (by linarith)
  have d : 0 < 4*n-2*t-3*s := by linarith
  by_contra hc
  have hc := mul_lt_mul_of_pos_right (not_le.mp hc) d
  have e0 : 0 ≤ (n+1)/2 - s := by linarith
  have f0 : 0 ≤ n/2 - t := by linarith
  have f1 : 0 ≤ n + 1/2 - (n/2 - t) := by linarith
  have n0 : 0 ≤ n := by linarith
  nlinarith only [hc, key2, mul_nonneg e0 f1, mul_nonneg e0 n0, mul_nonneg f0 n0, e0, f0, hn, mul_nonneg n0 (sub_nonneg.mpr hn)]

theorem Yhigh {n s t X Y : ℚ} (hn : 2 ≤ n) (s2 : s ≤ (n+1)/2) (t1 : -(n+1)/2 ≤ t) (t2 : t ≤ n/2) (hs0 : 0 ≤ s)
  (hB : 2 * (X * (-s) + Y * (2*n-t)) ≤ (-s)^2 + (2*n-t)^2)
  (hC : 2 * (X * (2*n-s) + Y * (-n-t)) ≤ (2*n-s)^2 + (-n-t)^2) : Y ≤ 3*n+8 := by
  have h1 : 0 ≤ 2*n-s := by linarith
  have h3 := mul_le_mul_of_nonneg_left hB h1
  have h4 := mul_le_mul_of_nonneg_left hC hs0
  have key : n*(2*Y*(4*n-2*t-3*s)) ≤ n*(2*s*(2*n-s) + 2*(2*n-t)^2 - 3*s*(n-2*t)) := by nlinarith only [h3, h4]
  have key2 := le_of_mul_le_mul_left key (by linarith)
  have d : 0 < 4*n-2*t-3*s := by linarith
  by_contra hc
  have hc := mul_lt_mul_of_pos_right (not_le.mp hc) d
  have e0 : 0 ≤ (n+1)/2 - s := by linarith
  have f0 : 0 ≤ n/2 - t := by linarith
  have f1 : 0 ≤ n + 1/2 - (n/2 - t) := by linarith
  have n0 : 0 ≤ n := by linarith
  nlinarith only [hc, key2, mul_nonneg hs0 f0, mul_nonneg e0 f0, mul_nonneg e0 f1, mul_nonneg f0 f1, mul_nonneg e0 hs0, mul_nonneg e0 n0, mul_nonneg f0 n0, e0, f0, hn, mul_nonneg n0 (sub_nonneg.mpr hn)]

theorem floor_lt_ceil {k : ℤ} {b : ℚ} (h : (k : ℚ) < b) : k < ⌈b⌉ := Int.lt_ceil.mpr h

/-- The requirements on the float operations: float64, a `p` bit type for the stored circle, and
a square root. -/
structure FloatOK (F : FloatOps) (p : Nat) : Prop where
  r64 : Rnd 53 F.r64
  r32 : Rnd p F.r32
  sqrt : SqrtOK F.sqrt

theorem ieee_ok : FloatOK ieee 24 := ⟨rne_rnd (by norm_num), rne_rnd (by norm_num), sqrt64_ok⟩

/-! ### One axis -/

/-- The interval of the rounded circle along one axis keeps a distance from the image coordinates of
points of the closed disc (`c` and `R` are the float64 centre and radius, grid.go 33-51 computes
the interval). -/
def AxisOK (F : FloatOps) (n : ℤ) : Prop :=
  ∀ (x : ℤ) (c R : ℚ), 0 ≤ x → x ≤ n → x - (17 / 4 * n + 9) ≤ c → c ≤ x + (4 * n + 9) → 0 ≤ R →
    R ≤ 25 / 4 * n + 17 → c - R - 1 / 100000 ≤ x → x ≤ c + R + 1 / 100000 →
    F.r32 (F.r32 c - F.r32 (F.r32 R + F.r32 (1 / 1000))) ≤ x - 1 / 100000 ∧
      x + 1 / 100000 ≤ F.r32 (F.r32 c + F.r32 (F.r32 R + F.r32 (1 / 1000)))

/-- The relative error alone: `p` significant bits and a small enough image. -/
theorem axis_rnd {F : FloatOps} {p : Nat} (K : FloatOK F p) {n : ℤ} (hn1 : 1 ≤ n)
    (hN : (19 * (n : ℚ) + 60) / 2 ^ p ≤ 97 / 100000) : AxisOK F n := by
  intro x c R x0 x1 c1 c2 hR0 hR h1 h2
  have hx0 : (0 : ℚ) ≤ x := by exact_mod_cast x0
  have hx1 : (x : ℚ) ≤ n := by exact_mod_cast x1
  have hnq : (1 : ℚ) ≤ n := by exact_mod_cast hn1
  have hc : |c| ≤ 21 / 4 * n + 9 := abs_le.mpr ⟨by linarith, by linarith⟩
  set v : ℚ := 1 / 2 ^ p with hv
  have v0 : 0 < v := by positivity
  have hN' : (19 * (n : ℚ) + 60) * v ≤ 97 / 100000 := by rw [hv]; linarith [hN, div_eq_mul_one_div (19 * (n : ℚ) + 60) (2 ^ p)]
  have v1 : v ≤ 97 / 7900000 := by nlinarith
  have hn0 : (0 : ℚ) ≤ n := by linarith
  have nv : 0 ≤ n * v := mul_nonneg hn0 v0.le
  have err : ∀ y M : ℚ, |y| ≤ M → |F.r32 y - y| ≤ M * v := by
    intro y M hM
    refine (K.r32.err y).trans ?_
    rw [div_eq_mul_one_div]
    gcongr
  have e1 := abs_le.mp (err c _ hc)
  have e2 := abs_le.mp (err R (25 / 4 * n + 17) (by rw [abs_of_nonneg hR0]; exact hR))
  have e3 := abs_le.mp (err (1 / 1000) (1 / 1000) (by norm_num [abs_le]))
  set cc := F.r32 c
  set rr := F.r32 R
  set k := F.r32 (1 / 1000)
  have e4 := abs_le.mp (err (rr + k) (25 / 4 * n + 18) (by
    rw [abs_le]
    constructor <;> linarith))
  set rad := F.r32 (rr + k)
  have up : rad ≥ R + 1 / 1000 - (25 / 2 * n + 36) * v := by linarith
  have g1 : cc - rad ≤ x + 1 / 100000 - 1 / 1000 + (71 / 4 * n + 46) * v := by linarith
  have g2 : cc + rad ≥ x - 1 / 100000 + 1 / 1000 - (71 / 4 * n + 46) * v := by linarith
  constructor
  · have m1 := K.r32.mono _ _ g1
    have e5 := abs_le.mp (err (x + 1 / 100000 - 1 / 1000 + (71 / 4 * n + 46) * v) (n + 1) (by
      rw [abs_le]; constructor <;> linarith))
    linarith
  · have m1 := K.r32.mono _ _ g2
    have e5 := abs_le.mp (err (x - 1 / 100000 + 1 / 1000 - (71 / 4 * n + 46) * v) (n + 1) (by
      rw [abs_le]; constructor <;> linarith))
    linarith

section axis

variable {F : FloatOps} {p : Nat} (K : FloatOK F p) {W : Nat} (W1 : 1 ≤ W) (W2 : W ≤ 8191)

include K W1

theorem box_bounds : (W : ℚ) / 10 * (1 - 1 / 2 ^ 53) ≤ boxPixels F W ∧
    boxPixels F W ≤ (W : ℚ) / 10 * (1 + 1 / 2 ^ 53) ∧ 0 < boxPixels F W := by
  have hW : (1 : ℚ) ≤ W := by exact_mod_cast W1
  have h0 : (0 : ℚ) ≤ (W : ℚ) / 10 := by positivity
  have e : ((gridN : ℤ) : ℚ) = 10 := by norm_num [gridN]
  unfold boxPixels
  rw [e]
  exact ⟨K.r64.lo h0, K.r64.hi h0, K.r64.pos (by norm_num) (by positivity)⟩

/-- The box of an image coordinate. -/
theorem box_range {x : ℤ} (x0 : 0 ≤ x) (x1 : x ≤ W) : 0 ≤ boxOf F W x ∧ boxOf F W x < gridN := by
  obtain ⟨c1, c2, c0⟩ := box_bounds K W1
  have hx0 : (0 : ℚ) ≤ x := by exact_mod_cast x0
  have hx1 : (x : ℚ) ≤ W := by exact_mod_cast x1
  have hW : (1 : ℚ) ≤ W := by exact_mod_cast W1
  have a0 : 0 ≤ F.r64 (x / boxPixels F W) := K.r64.nonneg (by positivity)
  have a1 : F.r64 (x / boxPixels F W) < 11 := by
    have h1 : (x : ℚ) / boxPixels F W ≤ 21 / 2 := by
      rw [div_le_iff₀ c0]
      have : (21 / 2 : ℚ) * ((W : ℚ) / 10 * (1 - 1 / 2 ^ 53)) ≤ 21 / 2 * boxPixels F W := by gcongr
      refine le_trans ?_ this
      nlinarith
    have h2 := K.r64.hi (x := (x : ℚ) / boxPixels F W) (by positivity)
    have h3 : (x : ℚ) / boxPixels F W * (1 + 1 / 2 ^ 53) ≤ 21 / 2 * (1 + 1 / 2 ^ 53) := by gcongr
    refine lt_of_le_of_lt (h2.trans h3) (by norm_num)
  have f0 : 0 ≤ ⌊F.r64 (x / boxPixels F W)⌋ := Int.floor_nonneg.mpr a0
  have f1 : ⌊F.r64 (x / boxPixels F W)⌋ < 11 := Int.floor_lt.mpr (by exact_mod_cast a1)
  unfold boxOf gridN
  simp only
  split
  · omega
  · omega

include W2

/-- A coordinate that is inside `[z1, z2]` with some margin is in a listed box. -/
theorem box_listed {x : ℤ} (x0 : 0 ≤ x) (x1 : x ≤ W) {z1 z2 : ℚ} (h1 : z1 ≤ x - 1 / 100000)
    (h2 : x + 1 / 100000 ≤ z2) :
    max 0 (trunc (F.r64 (z1 / boxPixels F W))) ≤ boxOf F W x ∧
      boxOf F W x < min gridN ⌈F.r64 (z2 / boxPixels F W)⌉ := by
  obtain ⟨c1, c2, c0⟩ := box_bounds K W1
  obtain ⟨b0, b1⟩ := box_range K W1 x0 x1
  have hx0 : (0 : ℚ) ≤ x := by exact_mod_cast x0
  have hx1 : (x : ℚ) ≤ W := by exact_mod_cast x1
  have hW : (1 : ℚ) ≤ W := by exact_mod_cast W1
  have hW2 : (W : ℚ) ≤ 8191 := by exact_mod_cast W2
  set a := F.r64 (x / boxPixels F W) with ha
  have hab : a < F.r64 (z2 / boxPixels F W) := by
    have k1 := K.r64.hi (x := (x : ℚ) / boxPixels F W) (by positivity)
    have z0 : 0 ≤ z2 := by linarith
    have k2 := K.r64.lo (x := z2 / boxPixels F W) (by positivity)
    refine lt_of_le_of_lt k1 (lt_of_lt_of_le ?_ k2)
    rw [div_mul_eq_mul_div, div_mul_eq_mul_div]
    apply div_lt_div_of_pos_right _ c0
    nlinarith
  have hlo : trunc (F.r64 (z1 / boxPixels F W)) ≤ boxOf F W x := by
    by_cases hz : 0 ≤ z1
    · have hm : F.r64 (z1 / boxPixels F W) ≤ a := K.r64.mono _ _ (by gcongr; linarith)
      have hn := K.r64.nonneg (x := z1 / boxPixels F W) (by positivity)
      unfold trunc
      rw [if_pos hn]
      unfold boxOf
      simp only
      split
      · have hlt : F.r64 (z1 / boxPixels F W) < 10 := by
          have k1 := K.r64.hi (x := z1 / boxPixels F W) (by positivity)
          refine lt_of_le_of_lt k1 ?_
          rw [div_mul_eq_mul_div, div_lt_iff₀ c0]
          nlinarith
        have : ⌊F.r64 (z1 / boxPixels F W)⌋ < 10 := Int.floor_lt.mpr (by exact_mod_cast hlt)
        unfold gridN; omega
      · exact Int.floor_le_floor hm
    · have hn : F.r64 (z1 / boxPixels F W) ≤ 0 := K.r64.nonpos (div_nonpos_of_nonpos_of_nonneg (by linarith) c0.le)
      have : trunc (F.r64 (z1 / boxPixels F W)) ≤ 0 := by
        unfold trunc
        split
        · rename_i h
          have : F.r64 (z1 / boxPixels F W) = 0 := le_antisymm hn h
          rw [this]; simp
        · exact Int.ceil_le.mpr (by simpa using hn)
      omega
  refine ⟨max_le b0 hlo, lt_min b1 (floor_lt_ceil (lt_of_le_of_lt ?_ hab))⟩
  unfold boxOf
  simp only
  split
  · rename_i h
    have := Int.floor_le a
    rw [h] at this
    push_cast
    linarith
  · exact Int.floor_le a

/-- The rounded circle, along one axis. -/
theorem axis_listed {n x : ℤ} (hnW : (W : ℤ) ≤ n) (A : AxisOK F n) (x0 : 0 ≤ x) (x1 : x ≤ W) {c R : ℚ}
    (c1 : x - (17 / 4 * n + 9) ≤ c) (c2 : c ≤ x + (4 * n + 9)) (hR0 : 0 ≤ R) (hR : R ≤ 25 / 4 * n + 17)
    (h1 : c - R - 1 / 100000 ≤ x) (h2 : x ≤ c + R + 1 / 100000) :
    loBox F W (F.r32 c) (F.r32 R) ≤ boxOf F W x ∧ boxOf F W x < hiBox F W (F.r32 c) (F.r32 R) := by
  obtain ⟨g1, g2⟩ := A x c R x0 (x1.trans hnW) c1 c2 hR0 hR h1 h2
  exact box_listed K W1 W2 x0 x1 g1 g2

end axis

/-! ### The circumcircle -/

theorem Ok.sum {w h : Nat} (k : SizeOk w h) {a b : Pt} (ha : Ok w h a) (hb : Ok w h b) (hne : a ≠ b) :
    |a.x + b.x| ≤ 4 * (side w h : Int) ∧ |a.y + b.y| ≤ 4 * (side w h : Int) := by
  have hs := side_bounds k
  have := k.w1; have := k.h1
  have hne' : ¬ (a.x = b.x ∧ a.y = b.y) := fun h => hne (Pt.ext h.1 h.2)
  rcases ha with ⟨a1, a2, a3, a4⟩ | ha
  · rcases hb with ⟨b1, b2, b3, b4⟩ | hb
    · exact ⟨abs_le.mpr ⟨by omega, by omega⟩, abs_le.mpr ⟨by omega, by omega⟩⟩
    · rcases super_verts k hb with ⟨e1, e2⟩ | ⟨e1, e2⟩ | ⟨e1, e2⟩ <;> rw [e1, e2] <;>
        exact ⟨abs_le.mpr ⟨by omega, by omega⟩, abs_le.mpr ⟨by omega, by omega⟩⟩
  · rcases hb with ⟨b1, b2, b3, b4⟩ | hb
    · rcases super_verts k ha with ⟨e1, e2⟩ | ⟨e1, e2⟩ | ⟨e1, e2⟩ <;> rw [e1, e2] <;>
        exact ⟨abs_le.mpr ⟨by omega, by omega⟩, abs_le.mpr ⟨by omega, by omega⟩⟩
    · rcases super_verts k ha with ⟨e1, e2⟩ | ⟨e1, e2⟩ | ⟨e1, e2⟩ <;>
      rcases super_verts k hb with ⟨f1, f2⟩ | ⟨f1, f2⟩ | ⟨f1, f2⟩ <;>
      first
        | exact absurd ⟨by omega, by omega⟩ hne'
        | exact ⟨abs_le.mpr ⟨by omega, by omega⟩, abs_le.mpr ⟨by omega, by omega⟩⟩

/-- The exact integers of `calcCircumcircle`. -/
structure CircInts (a b c : Pt) where
  nx : ℤ
  ny : ℤ
  g : ℤ

/-- geom.go 73-83 without wrapping. -/
def circInts (a b c : Pt) : CircInts a b c :=
  let A := b.x - a.x
  let B := b.y - a.y
  let C := c.x - a.x
  let D := c.y - a.y
  let E := A * (a.x + b.x) + B * (a.y + b.y)
  let F := C * (a.x + c.x) + D * (a.y + c.y)
  ⟨D * E - B * F, A * F - C * E, 2 * (A * (c.y - b.y) - B * (c.x - b.x))⟩

theorem nondeg_ne {a b c : Pt} (h : NonDegenerate ⟨a, b, c⟩) : a ≠ b ∧ b ≠ c ∧ a ≠ c := by
  refine ⟨?_, ?_, ?_⟩ <;> rintro rfl <;> apply h <;> unfold area2 loc <;> simp <;> ring

/-- The integer part of `calcCircumcircle` is exact and fits in the float64 significand. -/
theorem circ_ints {F : FloatOps} {w h : Nat} (k : SizeOk w h) (R : Rnd 53 F.r64) {a b c : Pt} (ha : Ok w h a)
    (hb : Ok w h b) (hc : Ok w h c) (nd : NonDegenerate ⟨a, b, c⟩) :
    calcCircumcircle F a b c =
      let cx := F.r64 (((circInts a b c).nx : ℚ) / (circInts a b c).g)
      let cy := F.r64 (((circInts a b c).ny : ℚ) / (circInts a b c).g)
      let dx := F.r64 (cx - a.x)
      let dy := F.r64 (cy - a.y)
      ⟨F.r32 cx, F.r32 cy, F.r32 (F.sqrt (F.r64 (F.r64 (dx * dx) + F.r64 (dy * dy))))⟩ := by
  obtain ⟨hab, hbc, hac⟩ := nondeg_ne nd
  obtain ⟨_, s2, _⟩ := side_bounds k
  have n2 : (side w h : Int) ≤ 8191 := by exact_mod_cast s2
  have n0 : (0 : Int) ≤ (side w h : Int) := by positivity
  obtain ⟨dab, eab⟩ := Ok.diff2 k hb ha
  obtain ⟨dac, eac⟩ := Ok.diff2 k hc ha
  obtain ⟨dbc, ebc⟩ := Ok.diff2 k hc hb
  obtain ⟨sab, tab⟩ := Ok.sum k ha hb hab
  obtain ⟨sac, tac⟩ := Ok.sum k ha hc hac
  have i16 : ∀ z : Int, |z| ≤ 4 * (side w h : Int) → w16 z = z := by
    intro z hz; have := abs_le.mp hz; exact w16_id (by omega) (by omega)
  have i16' : ∀ z : Int, |z| ≤ 3 * (side w h : Int) → w16 z = z := by
    intro z hz; have := abs_le.mp hz; exact w16_id (by omega) (by omega)
  -- bounds as plain numbers
  have up : ∀ {z : Int}, |z| ≤ 4 * (side w h : Int) → |z| ≤ 32764 := fun h => h.trans (by omega)
  have up' : ∀ {z : Int}, |z| ≤ 3 * (side w h : Int) → |z| ≤ 32764 := fun h => h.trans (by omega)
  have bE := abs_add_le' (abs_mul_le' (up dab) (up sab)) (abs_mul_le' (up' eab) (up tab))
  have bF := abs_add_le' (abs_mul_le' (up dac) (up sac)) (abs_mul_le' (up' eac) (up tac))
  have bX := abs_sub_le' (abs_mul_le' (up' eac) bE) (abs_mul_le' (up' eab) bF)
  have bY := abs_sub_le' (abs_mul_le' (up dab) bF) (abs_mul_le' (up dac) bE)
  have bG := abs_mul_le' (a := 2) (A := 2) (by norm_num)
    (abs_sub_le' (abs_mul_le' (up dab) (up' ebc)) (abs_mul_le' (up' eab) (up dbc)))
  have i64 : ∀ {z M : Int}, |z| ≤ M → M ≤ 9223372036854775807 → w64 z = z := by
    intro z M hz hM; have := abs_le.mp hz; exact w64_id (by omega) (by omega)
  have fx : ∀ {z M : Int}, |z| ≤ M → M ≤ 2 ^ 53 → F.r64 (z : ℚ) = z := fun hz hM => R.int (hz.trans hM)
  unfold calcCircumcircle circInts
  simp only
  rw [i16 _ dab, i16' _ eab, i16 _ dac, i16' _ eac, i16 _ sab, i16 _ tab, i16 _ sac, i16 _ tac, i16' _ ebc, i16 _ dbc,
    i64 bE (by norm_num), i64 bF (by norm_num), i64 bX (by norm_num), i64 bY (by norm_num), i64 bG (by norm_num),
    fx bX (by norm_num), fx bY (by norm_num), fx bG (by norm_num)]

/-- The exact quotients are the circumcentre. -/
theorem circ_centre {a b c : Pt} (nd : NonDegenerate ⟨a, b, c⟩) :
    Centre ⟨a, b, c⟩ ⟨((circInts a b c).nx : ℚ) / (circInts a b c).g, ((circInts a b c).ny : ℚ) / (circInts a b c).g⟩ := by
  have hg : ((circInts a b c).g : ℚ) = 2 * area2 a b (loc c) := by
    unfold circInts area2 loc; push_cast; ring
  have hg0 : ((circInts a b c).g : ℚ) ≠ 0 := by rw [hg]; exact mul_ne_zero (by norm_num) nd
  have key : ∀ v : Pt, (2 * ((circInts a b c).nx : ℚ) * (v.x - a.x) + 2 * (circInts a b c).ny * (v.y - a.y)
        = (circInts a b c).g * ((v.x : ℚ) ^ 2 + v.y ^ 2 - a.x ^ 2 - a.y ^ 2)) →
      d2 ⟨((circInts a b c).nx : ℚ) / (circInts a b c).g, ((circInts a b c).ny : ℚ) / (circInts a b c).g⟩ a =
      d2 ⟨((circInts a b c).nx : ℚ) / (circInts a b c).g, ((circInts a b c).ny : ℚ) / (circInts a b c).g⟩ v := by
    intro v hv
    unfold d2
    simp only
    generalize ((circInts a b c).g : ℚ) = g at *
    generalize ((circInts a b c).nx : ℚ) = nx at *
    generalize ((circInts a b c).ny : ℚ) = ny at *
    have h1 : (v.x : ℚ) ^ 2 + v.y ^ 2 - a.x ^ 2 - a.y ^ 2 = 2 * (nx / g) * (v.x - a.x) + 2 * (ny / g) * (v.y - a.y) := by
      field_simp
      linarith
    linear_combination -h1
  refine ⟨key b ?_, key c ?_⟩ <;> unfold circInts <;> push_cast <;> ring

end Verif.Incr

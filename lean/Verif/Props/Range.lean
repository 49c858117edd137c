import Verif.Props.Rounding
import Verif.Props.Ieee

/-!
# C110: no float operation of the triangulation leaves the normal range

The model rounds with an unbounded range of exponents.  Here `Normal F` says only that `F` rounds like that for zero and for
values from the least normal to about the largest number of the format; elsewhere (subnormal numbers, overflow) `F` may do
anything.  The triangulation with `F` is the one with `ieee`, since no other value occurs.
-/

namespace Verif.Props

open Verif.Tri Verif.Spec Verif.Incr Verif.Float

/-- Zero, or of a size from `2 ^ a` to `2 ^ b`. -/
def Mag (a b : ℤ) (x : ℚ) : Prop := x = 0 ∨ (2 : ℚ) ^ a ≤ |x| ∧ |x| ≤ (2 : ℚ) ^ b

/-- A multiple of `2 ^ a` of a size up to `2 ^ b`. -/
def Dyad (a b : ℤ) (x : ℚ) : Prop := (∃ n : ℤ, x = n * (2 : ℚ) ^ a) ∧ |x| ≤ (2 : ℚ) ^ b

/-- Arithmetic that is that of IEEE 754 for normal numbers (geom.go, grid.go and util.go use float64, float32 and `math.Sqrt`). -/
structure Normal (F : FloatOps) : Prop where
  r64 : ∀ q, Mag (-1022) 1023 q → F.r64 q = rne 53 q
  r32 : ∀ q, Mag (-126) 127 q → F.r32 q = rne 24 q
  sqrt : ∀ q, Mag (-1022) 1023 q → 0 ≤ q → F.sqrt q = sqrt64 q

theorem two_mono {a b : ℤ} (h : a ≤ b) : (2 : ℚ) ^ a ≤ (2 : ℚ) ^ b := zpow_le_zpow_right₀ (by norm_num) h

theorem Mag.mono {a b a' b' : ℤ} {x : ℚ} (h : Mag a b x) (h1 : a' ≤ a) (h2 : b ≤ b') : Mag a' b' x :=
  h.imp_right fun h => ⟨(two_mono h1).trans h.1, h.2.trans (two_mono h2)⟩

theorem Mag.le {a b : ℤ} {x : ℚ} (h : Mag a b x) : |x| ≤ (2 : ℚ) ^ b := by
  rcases h with rfl | h
  · rw [abs_zero]; exact (zpow_pos (by norm_num) _).le
  · exact h.2

theorem Dyad.mag {a b : ℤ} {x : ℚ} (h : Dyad a b x) : Mag a b x := by
  obtain ⟨⟨n, hn⟩, h2⟩ := h
  rcases eq_or_ne n 0 with rfl | h0
  · left; simp [hn]
  · refine Or.inr ⟨?_, h2⟩
    have p : (0 : ℚ) < (2 : ℚ) ^ a := zpow_pos (by norm_num) _
    rw [hn, abs_mul, abs_of_pos p]
    have : (1 : ℚ) ≤ |(n : ℚ)| := by exact_mod_cast Int.one_le_abs h0
    exact le_mul_of_one_le_left p.le this

theorem Dyad.mono {a b a' b' : ℤ} {x : ℚ} (h : Dyad a b x) (h1 : a' ≤ a) (h2 : b ≤ b') : Dyad a' b' x := by
  obtain ⟨⟨n, hn⟩, h3⟩ := h
  obtain ⟨j, hj⟩ : ∃ j : ℕ, a = a' + j := ⟨(a - a').toNat, by omega⟩
  refine ⟨⟨n * 2 ^ j, ?_⟩, h3.trans (two_mono h2)⟩
  rw [hn, hj, zpow_add₀ (by norm_num), zpow_natCast]
  push_cast; ring

theorem dy_int {n : ℤ} {b : ℕ} (h : |n| ≤ 2 ^ b) : Dyad 0 b n := by
  refine ⟨⟨n, by simp⟩, ?_⟩
  rw [zpow_natCast]
  exact_mod_cast h

theorem Dyad.add {a b : ℤ} {x y : ℚ} (h : Dyad a b x) (k : Dyad a b y) : Dyad a (b + 1) (x + y) := by
  obtain ⟨⟨n, hn⟩, h3⟩ := h
  obtain ⟨⟨m, hm⟩, k3⟩ := k
  refine ⟨⟨n + m, by rw [hn, hm]; push_cast; ring⟩, ?_⟩
  rw [zpow_add₀ (by norm_num), zpow_one]
  linarith [abs_add_le x y]

theorem Dyad.neg {a b : ℤ} {x : ℚ} (h : Dyad a b x) : Dyad a b (-x) := by
  obtain ⟨⟨n, hn⟩, h3⟩ := h
  exact ⟨⟨-n, by rw [hn]; push_cast; ring⟩, by rwa [abs_neg]⟩

theorem Dyad.sub {a b : ℤ} {x y : ℚ} (h : Dyad a b x) (k : Dyad a b y) : Dyad a (b + 1) (x - y) := by
  rw [sub_eq_add_neg]; exact h.add k.neg

theorem Mag.mul {a b a' b' : ℤ} {x y : ℚ} (h : Mag a b x) (k : Mag a' b' y) : Mag (a + a') (b + b') (x * y) := by
  rcases h with rfl | h
  · left; simp
  rcases k with rfl | k
  · left; simp
  right
  rw [abs_mul, zpow_add₀ (by norm_num), zpow_add₀ (by norm_num)]
  exact ⟨mul_le_mul h.1 k.1 (zpow_pos (by norm_num) _).le (abs_nonneg _), mul_le_mul h.2 k.2 (abs_nonneg _) (zpow_pos (by norm_num) _).le⟩

theorem Mag.inv {a b : ℤ} {x : ℚ} (h : Mag a b x) : Mag (-b) (-a) x⁻¹ := by
  rcases h with rfl | h
  · left; simp
  right
  have p : 0 < |x| := lt_of_lt_of_le (zpow_pos (by norm_num) _) h.1
  rw [abs_inv, zpow_neg, zpow_neg]
  exact ⟨inv_anti₀ p h.2, inv_anti₀ (zpow_pos (by norm_num) _) h.1⟩

theorem Mag.div {a b a' b' : ℤ} {x y : ℚ} (h : Mag a b x) (k : Mag a' b' y) : Mag (a - b') (b - a') (x / y) := by
  rw [div_eq_mul_inv, sub_eq_add_neg, sub_eq_add_neg]
  exact h.mul k.inv

theorem Mag.add {a b : ℤ} {x y : ℚ} (h : Mag a b x) (k : Mag a b y) (x0 : 0 ≤ x) (y0 : 0 ≤ y) : Mag a (b + 1) (x + y) := by
  rcases eq_or_ne x 0 with rfl | hx
  · rw [zero_add]; exact k.mono (le_refl _) (by omega)
  have h1 := (h.resolve_left hx).1
  have h2 := h.le
  have k2 := k.le
  rw [abs_of_nonneg x0] at h1 h2
  rw [abs_of_nonneg y0] at k2
  right
  rw [abs_of_nonneg (by linarith), zpow_add₀ (by norm_num), zpow_one]
  constructor <;> linarith

theorem rep_two (p : Nat) (a : ℤ) : Rep p ((2 : ℚ) ^ a) := ⟨1, a, by rw [abs_one]; exact one_le_pow₀ (by norm_num), by simp⟩

theorem rne_absolute (p : Nat) (x : ℚ) (hp : 1 ≤ p) : |rne p x| = rne p |x| := by
  rcases le_total 0 x with h | h
  · rw [abs_of_nonneg h, abs_of_nonneg (rne_nonneg hp h)]
  · have := rne_nonneg hp (a := -x) (by linarith)
    rw [abs_of_nonpos h, rne_neg, abs_of_nonpos]
    rw [rne_neg] at this; linarith

theorem Mag.rne {p : Nat} (hp : 1 ≤ p) {a b : ℤ} {x : ℚ} (h : Mag a b x) : Mag a b (rne p x) ∧ Dyad (a - (p - 1 : ℤ)) b (rne p x) := by
  have m : Mag a b (Float.rne p x) := by
    rcases h with rfl | h
    · left; exact rne_zero p
    · right
      rw [rne_absolute p x hp, ← rne_fix hp (rep_two p a), ← rne_fix hp (rep_two p b)]
      exact ⟨rne_mono hp h.1, rne_mono hp h.2⟩
  refine ⟨m, ?_, m.le⟩
  rcases m with e | m
  · exact ⟨0, by simp [e]⟩
  have r := rne_rep p x
  rcases abs_choice (Float.rne p x) with s | s
  · rw [s] at m
    exact rep_above hp r m.1
  · rw [s] at m
    obtain ⟨n, hn⟩ := rep_above hp (rep_neg r) m.1
    exact ⟨-n, by push_cast; linarith⟩

theorem mag_sqrt {a b : ℤ} {x : ℚ} (x0 : 0 ≤ x) (h : Mag (2 * a) (2 * b) x) : Mag (a - 1) (b + 1) (sqrt64 x) := by
  rcases h with rfl | h
  · left; unfold sqrt64; simp
  right
  rw [abs_of_nonneg x0] at h
  obtain ⟨e1, e2⟩ := sqrt64_ok.err x x0
  have r0 := sqrt64_ok.nonneg x
  have sq (c : ℤ) : (2 : ℚ) ^ (2 * c) = ((2 : ℚ) ^ c) ^ 2 := by rw [two_mul, zpow_add₀ (by norm_num), sq]
  have pa : (0 : ℚ) < (2 : ℚ) ^ a := zpow_pos (by norm_num) _
  have pb : (0 : ℚ) < (2 : ℚ) ^ b := zpow_pos (by norm_num) _
  rw [sq, sq] at h
  rw [abs_of_nonneg r0, zpow_sub₀ (by norm_num), zpow_add₀ (by norm_num), zpow_one]
  constructor
  · refine le_of_sq_le_sq ?_ r0
    rw [div_pow]
    nlinarith [sq_nonneg ((2 : ℚ) ^ a)]
  · refine le_of_sq_le_sq ?_ (by positivity)
    rw [mul_pow]
    nlinarith [sq_nonneg ((2 : ℚ) ^ b)]

theorem w64_abs (z : ℤ) : |w64 z| ≤ 2 ^ 63 := by
  unfold w64
  rw [Int.bmod_def, abs_le]
  constructor <;> omega

theorem w16_abs (z : ℤ) : |w16 z| ≤ 2 ^ 15 := by
  unfold w16
  rw [Int.bmod_def, abs_le]
  constructor <;> omega

variable {F : FloatOps} {w h : Nat}

/-- A quotient of int64 numbers, and of its rounding. -/
theorem quot64 (N : Normal F) {x y : ℤ} (hx : |x| ≤ 2 ^ 63) (hy : |y| ≤ 2 ^ 63) :
    F.r64 (F.r64 x / F.r64 y) = rne 53 (rne 53 x / rne 53 y) ∧ Mag (-63) 63 (rne 53 (rne 53 x / rne 53 y)) ∧
      Dyad (-115) 63 (rne 53 (rne 53 x / rne 53 y)) := by
  have mx := (dy_int hx).mag
  have my := (dy_int hy).mag
  have q := (mx.rne (p := 53) (by norm_num)).1.div (my.rne (p := 53) (by norm_num)).1
  rw [N.r64 _ (mx.mono (by norm_num) (by norm_num)), N.r64 _ (my.mono (by norm_num) (by norm_num)),
    N.r64 _ (q.mono (by norm_num) (by norm_num))]
  obtain ⟨q1, q2⟩ := q.rne (p := 53) (by norm_num)
  exact ⟨rfl, q1.mono (by norm_num) (by norm_num), q2.mono (by norm_num) (by norm_num)⟩

/-- C110: the scores of ears. -/
theorem c110_score (N : Normal F) (a b c d : Pt) : calculateScore F.r64 a b c d = calculateScore (rne 53) a b c d := by
  unfold calculateScore
  simp only
  split_ifs
  · rfl
  · rw [(quot64 N ?_ ?_).1]
    · unfold inCircle inCircleDet
      simp only
      split_ifs <;> exact w64_abs _
    · exact w64_abs _

theorem mkEar_normal (N : Normal F) : mkEar F.r64 = mkEar (rne 53) := by
  funext p a b c
  unfold mkEar
  rw [c110_score N]

theorem earLoop_normal (N : Normal F) (g : Geo) (p : Pt) (n : Nat) : ∀ d ears, earLoop g F.r64 p n d ears = earLoop g (rne 53) p n d ears := by
  induction n with
  | zero => intro d ears; rfl
  | succ n ih =>
    intro d ears
    unfold earLoop cutEar
    simp only [mkEar_normal N, ih]

theorem exec_normal (N : Normal F) (g : Geo) (ops : List Op) : exec g F.r64 w h ops = exec g (rne 53) w h ops := by
  have r : remove g F.r64 = remove g (rne 53) := by
    funext d p
    unfold remove initEars
    simp only [mkEar_normal N, earLoop_normal N]
  have s : step g F.r64 = step g (rne 53) := by
    funext d o
    cases o <;> simp only [step, r]
  unfold exec run
  rw [s]

/-- A difference of a rounded quotient and a coordinate. -/
theorem diff64 (N : Normal F) {X : ℚ} (hX : Dyad (-115) 63 X) {v : ℤ} (hv : |v| ≤ 2 ^ 63) :
    F.r64 (X - v) = rne 53 (X - v) ∧ Mag (-115) 64 (rne 53 (X - v)) := by
  have d := (hX.sub ((dy_int hv).mono (by norm_num) (by norm_num))).mag
  rw [N.r64 _ (d.mono (by norm_num) (by norm_num))]
  exact ⟨rfl, (d.rne (p := 53) (by norm_num)).1.mono (by norm_num) (by norm_num)⟩

theorem square64 (N : Normal F) {X : ℚ} (hX : Mag (-115) 64 X) :
    F.r64 (X * X) = rne 53 (X * X) ∧ Mag (-230) 128 (rne 53 (X * X)) ∧ 0 ≤ rne 53 (X * X) := by
  have d := hX.mul hX
  rw [N.r64 _ (d.mono (by norm_num) (by norm_num))]
  exact ⟨rfl, (d.rne (p := 53) (by norm_num)).1.mono (by norm_num) (by norm_num), rne_nonneg (by norm_num) (mul_self_nonneg _)⟩

theorem hypot64 (N : Normal F) {X Y : ℚ} (hX : Mag (-115) 64 X) (hY : Mag (-115) 64 Y) :
    F.r32 (F.sqrt (F.r64 (F.r64 (X * X) + F.r64 (Y * Y)))) = rne 24 (sqrt64 (rne 53 (rne 53 (X * X) + rne 53 (Y * Y)))) ∧
      Mag (-116) 66 (rne 24 (sqrt64 (rne 53 (rne 53 (X * X) + rne 53 (Y * Y))))) ∧
      0 ≤ rne 24 (sqrt64 (rne 53 (rne 53 (X * X) + rne 53 (Y * Y)))) := by
  obtain ⟨x1, x2, x3⟩ := square64 N hX
  obtain ⟨y1, y2, y3⟩ := square64 N hY
  have s := x2.add y2 x3 y3
  have s0 : 0 ≤ rne 53 (X * X) + rne 53 (Y * Y) := add_nonneg x3 y3
  have r := (s.rne (p := 53) (by norm_num)).1
  have r0 := rne_nonneg (p := 53) (by norm_num) s0
  have q := mag_sqrt (a := -115) (b := 65) r0 (r.mono (by norm_num) (by norm_num))
  rw [x1, y1, N.r64 _ (s.mono (by norm_num) (by norm_num)), N.sqrt _ (r.mono (by norm_num) (by norm_num)) r0,
    N.r32 _ (q.mono (by norm_num) (by norm_num))]
  exact ⟨rfl, (q.rne (p := 24) (by norm_num)).1.mono (by norm_num) (by norm_num), rne_nonneg (by norm_num) (sqrt64_ok.nonneg _)⟩

/-- C110: circumcircles. -/
theorem c110_circle (N : Normal F) {v0 : Pt} (hx : |v0.x| ≤ 2 ^ 63) (hy : |v0.y| ≤ 2 ^ 63) (v1 v2 : Pt) :
    calcCircumcircle F v0 v1 v2 = calcCircumcircle ieee v0 v1 v2 ∧ Dyad (-86) 63 (calcCircumcircle ieee v0 v1 v2).cx ∧
      Dyad (-86) 63 (calcCircumcircle ieee v0 v1 v2).cy ∧ Mag (-116) 66 (calcCircumcircle ieee v0 v1 v2).rad ∧
      0 ≤ (calcCircumcircle ieee v0 v1 v2).rad := by
  unfold calcCircumcircle
  simp only [ieee]
  obtain ⟨x1, x2, x3⟩ := quot64 N (w64_abs (w16 (v2.y - v0.y) * w64 (w16 (v1.x - v0.x) * w16 (v0.x + v1.x) + w16 (v1.y - v0.y) * w16 (v0.y + v1.y)) -
    w16 (v1.y - v0.y) * w64 (w16 (v2.x - v0.x) * w16 (v0.x + v2.x) + w16 (v2.y - v0.y) * w16 (v0.y + v2.y))))
    (w64_abs (2 * (w16 (v1.x - v0.x) * w16 (v2.y - v1.y) - w16 (v1.y - v0.y) * w16 (v2.x - v1.x))))
  obtain ⟨y1, y2, y3⟩ := quot64 N (w64_abs (w16 (v1.x - v0.x) * w64 (w16 (v2.x - v0.x) * w16 (v0.x + v2.x) + w16 (v2.y - v0.y) * w16 (v0.y + v2.y)) -
    w16 (v2.x - v0.x) * w64 (w16 (v1.x - v0.x) * w16 (v0.x + v1.x) + w16 (v1.y - v0.y) * w16 (v0.y + v1.y))))
    (w64_abs (2 * (w16 (v1.x - v0.x) * w16 (v2.y - v1.y) - w16 (v1.y - v0.y) * w16 (v2.x - v1.x))))
  rw [x1, y1]
  obtain ⟨u1, u2⟩ := diff64 N x3 hx
  obtain ⟨v1, v2⟩ := diff64 N y3 hy
  obtain ⟨r1, r2, r3⟩ := hypot64 N u2 v2
  rw [u1, v1, r1, N.r32 _ (x2.mono (by norm_num) (by norm_num)), N.r32 _ (y2.mono (by norm_num) (by norm_num))]
  exact ⟨rfl, (x2.rne (p := 24) (by norm_num)).2.mono (by norm_num) (by norm_num),
    (y2.rne (p := 24) (by norm_num)).2.mono (by norm_num) (by norm_num), r2, r3⟩

theorem box_normal (N : Normal F) {n : Nat} (n1 : 1 ≤ n) (n2 : n ≤ 8191) :
    boxPixels F n = boxPixels ieee n ∧ Mag (-4) 13 (boxPixels ieee n) := by
  have m : Mag (-4) 13 ((n : ℚ) / gridN) := by
    have a : (1 : ℚ) ≤ n := by exact_mod_cast n1
    have b : (n : ℚ) ≤ 8191 := by exact_mod_cast n2
    right
    rw [abs_of_nonneg (by unfold gridN; positivity)]
    unfold gridN
    norm_num
    constructor <;> linarith
  unfold boxPixels
  rw [N.r64 _ (m.mono (by norm_num) (by norm_num))]
  exact ⟨rfl, (m.rne (p := 53) (by norm_num)).1⟩

theorem radius_normal (N : Normal F) {r : ℚ} (hr : Mag (-116) 66 r) (r0 : 0 ≤ r) :
    F.r32 (r + F.r32 (1 / 1000)) = rne 24 (r + rne 24 (1 / 1000)) ∧ Dyad (-86) 67 (rne 24 (r + rne 24 (1 / 1000))) := by
  have m : Mag (-10) 66 (1 / 1000 : ℚ) := Or.inr ⟨by norm_num [abs_of_pos], by norm_num [abs_of_pos]⟩
  have k := (m.rne (p := 24) (by norm_num)).1
  have k0 : 0 ≤ rne 24 (1 / 1000 : ℚ) := rne_nonneg (by norm_num) (by norm_num)
  have s : Mag (-10) 67 (r + rne 24 (1 / 1000)) := by
    rcases k with e | k
    · exact absurd e (by decide +kernel)
    · have := hr.le
      rw [abs_of_nonneg k0] at k
      rw [abs_of_nonneg r0] at this
      right
      rw [abs_of_nonneg (by linarith), show (67 : ℤ) = 66 + 1 by norm_num, zpow_add₀ (by norm_num), zpow_one]
      constructor <;> linarith
  rw [N.r32 _ (m.mono (by norm_num) (by norm_num)), N.r32 _ (s.mono (by norm_num) (by norm_num))]
  exact ⟨rfl, (s.rne (p := 24) (by norm_num)).2.mono (by norm_num) (by norm_num)⟩

theorem bounds_normal (N : Normal F) {n : Nat} (n1 : 1 ≤ n) (n2 : n ≤ 8191) {c r : ℚ} (hc : Dyad (-86) 63 c)
    (hr : Mag (-116) 66 r) (r0 : 0 ≤ r) : loBox F n c r = loBox ieee n c r ∧ hiBox F n c r = hiBox ieee n c r := by
  obtain ⟨b1, b2⟩ := box_normal N n1 n2
  obtain ⟨k1, k2⟩ := radius_normal N hr r0
  have c' := hc.mono (a' := -86) (b' := 67) (by norm_num) (by norm_num)
  have key (q : ℚ) (hq : Mag (-86) 68 q) : F.r64 (F.r32 q / boxPixels F n) = rne 53 (rne 24 q / boxPixels ieee n) := by
    have m := (hq.rne (p := 24) (by norm_num)).1.div b2
    rw [b1, N.r32 _ (hq.mono (by norm_num) (by norm_num)), N.r64 _ (m.mono (by norm_num) (by norm_num))]
  unfold loBox hiBox
  simp only [k1]
  rw [key _ (c'.sub k2).mag, key _ (c'.add k2).mag]
  exact ⟨rfl, rfl⟩

theorem boxOf_normal (N : Normal F) {n : Nat} (n1 : 1 ≤ n) (n2 : n ≤ 8191) {x : ℤ} (hx : |x| ≤ 2 ^ 63) : boxOf F n x = boxOf ieee n x := by
  obtain ⟨b1, b2⟩ := box_normal N n1 n2
  have m := (dy_int hx).mag.div b2
  unfold boxOf
  rw [b1, N.r64 _ (m.mono (by norm_num) (by norm_num))]
  rfl

/-- C110: the grid. -/
theorem c110_grid (N : Normal F) (k : SizeOk w h) {p : Pt} (hx : |p.x| ≤ 2 ^ 63) (hy : |p.y| ≤ 2 ^ 63) :
    (gridGeo F w h).cell p = (gridGeo ieee w h).cell p ∧ (gridGeo F w h).cover p = (gridGeo ieee w h).cover p := by
  constructor
  · simp only [gridGeo]
    rw [boxOf_normal N k.w1 k.w2 hx, boxOf_normal N k.h1 k.h2 hy]
  · funext b c x y
    obtain ⟨e, c1, c2, c3, c4⟩ := c110_circle N hx hy b c
    simp only [gridGeo]
    rw [e, (bounds_normal N k.w1 k.w2 c1 c3 c4).1, (bounds_normal N k.w1 k.w2 c1 c3 c4).2, (bounds_normal N k.h1 k.h2 c2 c3 c4).1,
      (bounds_normal N k.h1 k.h2 c2 c3 c4).2]

theorem img_small (k : SizeOk w h) {p : Pt} (hp : InImg w h p) : |p.x| ≤ 2 ^ 63 ∧ |p.y| ≤ 2 ^ 63 := by
  have := hp.x1; have := hp.x2; have := hp.y1; have := hp.y2
  have := k.w2; have := k.h2
  rw [abs_le, abs_le]
  omega

theorem ok_small (k : SizeOk w h) {p : Pt} (hp : Ok w h p) : |p.x| ≤ 2 ^ 63 ∧ |p.y| ≤ 2 ^ 63 := by
  rcases hp with hp | hp
  · exact img_small k hp
  · have s : side w h ≤ 8191 := max_le k.w2 k.h2
    have := k.w2; have := k.h2
    have := super_verts k hp
    rw [abs_le, abs_le]
    omega

theorem arith_normal (N : Normal F) {ops : List Op} (A : Arith (gridGeo ieee w h) (rne 53) w h ops) :
    Arith (gridGeo F w h) (rne 53) w h ops := by
  refine ⟨A.size, ⟨fun p hp => ?_, fun a b c p k ha hb hc hp q h1 h2 h3 h4 => ?_⟩, A.score⟩
  · obtain ⟨i1, i2⟩ := img_small A.size hp
    rw [(c110_grid N A.size i1 i2).1]
    exact A.geo.cell p hp
  · obtain ⟨i1, i2⟩ := img_small A.size hp
    obtain ⟨j1, j2⟩ := ok_small A.size ha
    rw [(c110_grid N A.size i1 i2).1] at h4
    rw [(c110_grid N A.size j1 j2).2]
    exact A.geo.cover a b c p k ha hb hc hp q h1 h2 h3 h4

/-- C110: with arithmetic that is IEEE arithmetic for normal numbers, whatever it does on overflow and with subnormal numbers,
every history succeeds and leaves a valid triangulation of the stored points. -/
theorem c110_valid (N : Normal F) {ops : List Op} {s : Multiset Pt} {m : Nat} (k : SizeOk w h) (hn : side w h ≤ 4096)
    (H : Hist w h ops s m) : ∃ d, exec (gridGeo F w h) F.r64 w h ops = some d ∧ Valid (gridGeo F w h) w h s d := by
  rw [exec_normal N]
  exact valid_of (arith_normal N (arith_ieee k hn)) H

/-- Arithmetic that yields zero instead of subnormal numbers, and the largest power of two instead of an overflow. -/
def flushing : FloatOps where
  r64 q := if |q| < 1 / 2 ^ 1022 then 0 else if 2 ^ 1023 < |q| then 2 ^ 1023 else rne 53 q
  r32 q := if |q| < 1 / 2 ^ 126 then 0 else if 2 ^ 127 < |q| then 2 ^ 127 else rne 24 q
  sqrt q := if |q| < 1 / 2 ^ 1022 then 0 else if 2 ^ 1023 < |q| then 2 ^ 1023 else sqrt64 q

theorem flush_mag {a b : ℕ} {q : ℚ} (h : Mag (-a) b q) (f : ℚ → ℚ) (f0 : f 0 = 0) (z : ℚ) :
    (if |q| < 1 / 2 ^ a then 0 else if 2 ^ b < |q| then z else f q) = f q := by
  rcases h with rfl | ⟨h1, h2⟩
  · rw [if_pos (by rw [abs_zero]; positivity), f0]
  · rw [zpow_neg, zpow_natCast, ← one_div] at h1
    rw [zpow_natCast] at h2
    rw [if_neg (not_lt.mpr h1), if_neg (not_lt.mpr h2)]

theorem flushing_normal : Normal flushing :=
  ⟨fun _ h => flush_mag (a := 1022) (b := 1023) h _ (rne_zero 53) _, fun _ h => flush_mag (a := 126) (b := 127) h _ (rne_zero 24) _,
    fun _ h _ => flush_mag (a := 1022) (b := 1023) h _ (by unfold sqrt64; simp) _⟩

-- It differs from the arithmetic of the model, and the history of C60 and C61 succeeds with it.
example : flushing.r32 (1 / 2 ^ 127) ≠ ieee.r32 (1 / 2 ^ 127) := by decide +kernel
example : ∃ d, exec (gridGeo flushing 40 30) flushing.r64 40 30 demoOps = some d ∧ Valid (gridGeo flushing 40 30) 40 30 demoBag d :=
  c110_valid flushing_normal demo_size (by decide) demo_hist

end Verif.Props

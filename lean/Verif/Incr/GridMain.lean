import Verif.Incr.GridOK

/-!
# The float32 grid: main theorem
-/

namespace Verif.Incr

open Verif.Tri Verif.Float Verif.Spec

theorem sq_round {r : ℚ → ℚ} (R : Rnd 53 r) (x : ℚ) :
    x ^ 2 * (1 - 1 / 2 ^ 51) ≤ r (r x * r x) ∧ r (r x * r x) ≤ x ^ 2 * (1 + 1 / 2 ^ 51) := by
  have e := abs_le.mp (R.err x)
  have hx2 : |x| ^ 2 = x ^ 2 := sq_abs x
  have hx0 := abs_nonneg x
  have lo : x ^ 2 * (1 - 1 / 2 ^ 52) ≤ r x * r x := by
    rcases le_total 0 x with h | h
    · rw [abs_of_nonneg h] at e
      have : x * (1 - 1 / 2 ^ 53) ≤ r x := R.lo h
      have h2 : 0 ≤ x * (1 - 1 / 2 ^ 53) := mul_nonneg h (by norm_num)
      nlinarith
    · rw [abs_of_nonpos h] at e
      have : r x ≤ x * (1 - 1 / 2 ^ 53) := by linarith
      have h2 : 0 ≤ -(x * (1 - 1 / 2 ^ 53)) := by
        have := mul_nonneg (neg_nonneg.mpr h) (show (0 : ℚ) ≤ 1 - 1 / 2 ^ 53 by norm_num)
        linarith
      nlinarith
  have hi : r x * r x ≤ x ^ 2 * (1 + 1 / 2 ^ 53) ^ 2 := by
    have h1 : |r x| ≤ |x| * (1 + 1 / 2 ^ 53) := by
      have := R.err x
      have h3 := abs_sub_abs_le_abs_sub (r x) x
      have : |x| / 2 ^ 53 = |x| * (1 / 2 ^ 53) := by ring
      linarith
    have h2 : |r x| ^ 2 ≤ (|x| * (1 + 1 / 2 ^ 53)) ^ 2 := pow_le_pow_left₀ (abs_nonneg _) h1 2
    rw [sq_abs, mul_pow, hx2] at h2
    linarith
  have h0 : 0 ≤ r x * r x := mul_self_nonneg _
  have l := R.lo h0
  have u := R.hi h0
  have sx := sq_nonneg x
  constructor
  · nlinarith
  · nlinarith

theorem rad_hi {M R : ℚ} (m0 : 0 ≤ 25 / 4 * M + 16) (h : R ^ 2 ≤ (25 / 4 * M + 16) ^ 2 + 1) :
    R ≤ 25 / 4 * M + 17 := by
  by_contra hn
  have hn := not_le.mp hn
  nlinarith only [hn, h, m0]

theorem rad_lo {r2 R X : ℚ} (R0 : 0 ≤ R) (r1 : 1 / 4 ≤ r2) (h : r2 - 7 / 1000000 ≤ R ^ 2) (hX : X ^ 2 ≤ r2) :
    |X| ≤ R + 9 / 1000000 := by
  have hR : 49 / 100 ≤ R := by
    by_contra hn
    have hn := not_le.mp hn
    nlinarith only [hn, h, r1, R0]
  apply abs_le_of_sq_le_sq _ (by linarith)
  nlinarith only [hR, h, hX]

/-- Accuracy of the float64 part of `calcCircumcircle`. -/
theorem radius_ok {F : FloatOps} {p : Nat} (K : FloatOK F p) {n ox oy ax ay : ℚ} (n0 : 0 ≤ n) (n1 : n ≤ 8191)
    (hx : |ox| ≤ 21 / 4 * n + 8) (hy : |oy| ≤ 21 / 4 * n + 8)
    (r1 : 1 / 4 ≤ (ox - ax) ^ 2 + (oy - ay) ^ 2) (r2 : (ox - ax) ^ 2 + (oy - ay) ^ 2 ≤ (25 / 4 * n + 16) ^ 2) :
    let cx := F.r64 ox
    let cy := F.r64 oy
    let dx := F.r64 (cx - ax)
    let dy := F.r64 (cy - ay)
    let R := F.sqrt (F.r64 (F.r64 (dx * dx) + F.r64 (dy * dy)))
    |cx - ox| ≤ 5 / 1000000000000 ∧ |cy - oy| ≤ 5 / 1000000000000 ∧
      0 ≤ R ∧ R ≤ 25 / 4 * n + 17 ∧ (∀ X : ℚ, X ^ 2 ≤ (ox - ax) ^ 2 + (oy - ay) ^ 2 → |X| ≤ R + 9 / 1000000) ∧
      (ox - ax) ^ 2 + (oy - ay) ^ 2 - 7 / 1000000 ≤ R ^ 2 ∧ R ^ 2 ≤ (ox - ax) ^ 2 + (oy - ay) ^ 2 + 7 / 1000000 := by
  intro cx cy dx dy R
  have ctr : ∀ z : ℚ, |z| ≤ 21 / 4 * n + 8 → |F.r64 z - z| ≤ 5 / 1000000000000 := by
    intro z hz
    refine (K.r64.err z).trans ?_
    rw [div_le_iff₀ (by norm_num)]
    refine hz.trans ?_
    norm_num
    linarith
  have ex := ctr ox hx
  have ey := ctr oy hy
  refine ⟨ex, ey, K.sqrt.nonneg _, ?_⟩
  -- the rounded sum of squares
  obtain ⟨sx1, sx2⟩ := sq_round K.r64 (cx - ax)
  obtain ⟨sy1, sy2⟩ := sq_round K.r64 (cy - ay)
  set S := (cx - ax) ^ 2 + (cy - ay) ^ 2 with hS
  have S0 : 0 ≤ S := by positivity
  set q := F.r64 (dx * dx) + F.r64 (dy * dy) with hq
  have q1 : S * (1 - 1 / 2 ^ 51) ≤ q := by rw [hS, hq]; linarith
  have q2 : q ≤ S * (1 + 1 / 2 ^ 51) := by rw [hS, hq]; linarith
  have q0 : 0 ≤ q := le_trans (mul_nonneg S0 (by norm_num)) q1
  have t1 := K.r64.lo q0
  have t2 := K.r64.hi q0
  have t0 := K.r64.nonneg q0
  obtain ⟨u1, u2⟩ := K.sqrt.err _ t0
  have R0 : 0 ≤ R := K.sqrt.nonneg _
  set rq := F.r64 q
  have R1 : S * (1 - 1 / 2 ^ 49) ≤ R ^ 2 := by nlinarith
  have R2 : R ^ 2 ≤ S * (1 + 1 / 2 ^ 49) := by nlinarith
  -- the exact radius
  set r2' := (ox - ax) ^ 2 + (oy - ay) ^ 2 with hr
  have m : 25 / 4 * n + 16 ≤ 51210 := by linarith
  have m0 : 0 ≤ 25 / 4 * n + 16 := by linarith
  have dxr : |ox - ax| ≤ 51210 := by
    apply abs_le_of_sq_le_sq _ (by norm_num)
    nlinarith [sq_nonneg (oy - ay)]
  have dyr : |oy - ay| ≤ 51210 := by
    apply abs_le_of_sq_le_sq _ (by norm_num)
    nlinarith [sq_nonneg (ox - ax)]
  have dS : |S - r2'| ≤ 11 / 10000000 := by
    have e : S - r2' = (cx - ox) * (2 * (ox - ax) + (cx - ox)) + (cy - oy) * (2 * (oy - ay) + (cy - oy)) := by
      rw [hS, hr]; ring
    rw [e]
    have f : ∀ z c : ℚ, |c| ≤ 5 / 1000000000000 → |z| ≤ 51210 → |c * (2 * z + c)| ≤ 11 / 20000000 := by
      intro z c h1 h2
      rw [abs_mul]
      have : |2 * z + c| ≤ 102421 := by
        refine (abs_add_le _ _).trans ?_
        rw [abs_mul]
        norm_num
        linarith
      calc |c| * |2 * z + c| ≤ 5 / 1000000000000 * 102421 := by gcongr
        _ ≤ 11 / 20000000 := by norm_num
    refine (abs_add_le _ _).trans ?_
    linarith [f _ _ ex dxr, f _ _ ey dyr]
  have dS' := abs_le.mp dS
  have r2b : r2' ≤ 51210 ^ 2 := r2.trans (by gcongr)
  have S49 : S * (1 / 2 ^ 49) ≤ 5 / 1000000 := by
    have : S ≤ 51211 ^ 2 := by linarith
    calc S * (1 / 2 ^ 49) ≤ 51211 ^ 2 * (1 / 2 ^ 49) := by gcongr
      _ ≤ 5 / 1000000 := by norm_num
  have R1' : r2' - 7 / 1000000 ≤ R ^ 2 := by linarith
  have R2' : R ^ 2 ≤ r2' + 7 / 1000000 := by linarith
  exact ⟨rad_hi m0 (by linarith), fun X hX => rad_lo R0 r1 R1' hX, R1', R2'⟩

/-- All bounds on the centre relative to the point. -/
theorem centre_bounds {n s t X Y : ℚ} (hn : 2 ≤ n) (s1 : -(n+1)/2 ≤ s) (s2 : s ≤ n/2) (t1 : -(n+1)/2 ≤ t) (t2 : t ≤ n/2)
    (hA : 2 * (X * (-2*n-s) + Y * (-n-t)) ≤ (-2*n-s)^2 + (-n-t)^2)
    (hB : 2 * (X * (-s) + Y * (2*n-t)) ≤ (-s)^2 + (2*n-t)^2)
    (hC : 2 * (X * (2*n-s) + Y * (-n-t)) ≤ (2*n-s)^2 + (-n-t)^2) :
    |X| ≤ 4*n+8 ∧ -(17/4*n+8) ≤ Y ∧ Y ≤ 3*n+8 := by
  have m1 : 2 * (-X * (2*n - -s) + Y * (-n-t)) ≤ (2*n - -s)^2 + (-n-t)^2 := by linarith
  have m2 : 2 * (-X * (- -s) + Y * (2*n-t)) ≤ (- -s)^2 + (2*n-t)^2 := by linarith
  refine ⟨abs_le.mpr ⟨?_, Xhigh hn s1 (by linarith) t1 t2 hB hC⟩, Ylow hn s1 s2 t1 t2 hA hC, ?_⟩
  · have := Xhigh (s := -s) (X := -X) hn (by linarith) (by linarith) t1 t2 m2 m1
    linarith
  · rcases le_total 0 s with h | h
    · exact Yhigh hn (by linarith) t1 t2 h hB hC
    · exact Yhigh (s := -s) (X := -X) hn (by linarith) t1 t2 (by linarith) m2 m1

/-- The radius, from the fact that the circle contains no bounding vertex. -/
theorem radius_bound {n s t X Y r : ℚ} (hn : 2 ≤ n) (s1 : -(n+1)/2 ≤ s) (s2 : s ≤ n/2) (t1 : -(n+1)/2 ≤ t)
    (t2 : t ≤ n/2) (bX : |X| ≤ 4*n+8) (y1 : -(17/4*n+8) ≤ Y) (y2 : Y ≤ 3*n+8)
    (hA : r ≤ (X - (-2*n-s))^2 + (Y - (-n-t))^2)
    (hB : r ≤ (X - (-s))^2 + (Y - (2*n-t))^2)
    (hC : r ≤ (X - (2*n-s))^2 + (Y - (-n-t))^2) : r ≤ (25/4*n+16)^2 := by
  have bX := abs_le.mp bX
  have x2 : (X + s)^2 ≤ (9/2*n+17/2)^2 := by
    apply sq_le_sq' <;> linarith
  rcases le_total 0 Y with h | h
  · have : (Y - (2*n-t))^2 ≤ (5/2*n+17/2)^2 := by apply sq_le_sq' <;> linarith
    nlinarith only [hB, x2, this, hn]
  · have : (Y + n + t)^2 ≤ (15/4*n+17/2)^2 := by apply sq_le_sq' <;> linarith
    nlinarith only [hA, hC, x2, this, hn]

/-- What is known of the float circle of a triangle whose closed disc contains the image point `q` and
whose open disc contains no bounding vertex: `o` is the exact centre, `R` the float64 radius. -/
structure CircOK (F : FloatOps) (w h : Nat) (a b c q : Pt) (o : P2) (R : ℚ) : Prop where
  eq : calcCircumcircle F a b c = ⟨F.r32 (F.r64 o.x), F.r32 (F.r64 o.y), F.r32 R⟩
  rdef : R = F.sqrt (F.r64 (F.r64 (F.r64 (F.r64 o.x - a.x) * F.r64 (F.r64 o.x - a.x)) +
    F.r64 (F.r64 (F.r64 o.y - a.y) * F.r64 (F.r64 o.y - a.y))))
  centre : Centre ⟨a, b, c⟩ o
  inside : (o.x - q.x) ^ 2 + (o.y - q.y) ^ 2 ≤ (o.x - a.x) ^ 2 + (o.y - a.y) ^ 2
  out : ∀ v : Pt, (newSuperTriangle w h).hasVertex v = true →
    (o.x - a.x) ^ 2 + (o.y - a.y) ^ 2 ≤ (o.x - v.x) ^ 2 + (o.y - v.y) ^ 2
  ex : |F.r64 o.x - o.x| ≤ 5 / 1000000000000
  ey : |F.r64 o.y - o.y| ≤ 5 / 1000000000000
  bx : |o.x - q.x| ≤ 4 * ((side w h : ℤ) : ℚ) + 8
  by1 : -(17 / 4 * ((side w h : ℤ) : ℚ) + 8) ≤ o.y - q.y
  by2 : o.y - q.y ≤ 3 * ((side w h : ℤ) : ℚ) + 8
  R0 : 0 ≤ R
  R1 : R ≤ 25 / 4 * ((side w h : ℤ) : ℚ) + 17
  lx : |o.x - q.x| ≤ R + 9 / 1000000
  ly : |o.y - q.y| ≤ R + 9 / 1000000
  sq1 : (o.x - a.x) ^ 2 + (o.y - a.y) ^ 2 - 7 / 1000000 ≤ R ^ 2
  sq2 : R ^ 2 ≤ (o.x - a.x) ^ 2 + (o.y - a.y) ^ 2 + 7 / 1000000

theorem circ_ok {F : FloatOps} {p : Nat} (K : FloatOK F p) {w h : Nat} (k : SizeOk w h) {a b c q : Pt}
    (ha : Ok w h a) (hb : Ok w h b) (hc : Ok w h c) (hq : InImg w h q) (ho : 0 < (norm ⟨a, b, c⟩).or)
    (hsup : ∀ v, (norm (newSuperTriangle w h)).Has v → 0 ≤ (norm ⟨a, b, c⟩).pow v)
    (hpow : (norm ⟨a, b, c⟩).pow (toP q) ≤ 0) : ∃ o R, CircOK F w h a b c q o R := by
  have nd : NonDegenerate ⟨a, b, c⟩ := (nondeg_iff _).mpr ho
  have hce := circ_centre nd
  have hci := circ_ints k K.r64 ha hb hc nd
  set o : P2 := ⟨((circInts a b c).nx : ℚ) / (circInts a b c).g, ((circInts a b c).ny : ℚ) / (circInts a b c).g⟩ with ho'
  have hs := side_bounds k
  set n : ℤ := (side w h : ℤ) with hn
  have n2 : (2 : ℚ) ≤ n := by rw [hn]; exact_mod_cast hs.1
  have n3 : (n : ℚ) ≤ 8191 := by rw [hn]; exact_mod_cast hs.2.1
  have hq2 : d2 o q ≤ d2 o a := by
    have := pow_d2 nd hce q
    rw [this] at hpow; simp only at hpow; linarith
  have hsv : ∀ v : Pt, (newSuperTriangle w h).hasVertex v = true → d2 o a ≤ d2 o v := by
    intro v hv
    have h1 := hsup (toP v) ((hasVertex_iff _ _).mp hv)
    rw [pow_d2 nd hce v] at h1; simp only at h1; linarith
  set hw : ℤ := (((w + 1) / 2 : Nat) : ℤ) with hhw
  set hh : ℤ := (((h + 1) / 2 : Nat) : ℤ) with hhh
  have se := super_eq k
  rw [← hn, ← hhw, ← hhh] at se
  have hA := hsv ⟨hw - 2 * n, hh - n⟩ (by rw [se]; simp [Tri.hasVertex])
  have hB := hsv ⟨hw, hh + 2 * n⟩ (by rw [se]; simp [Tri.hasVertex])
  have hC := hsv ⟨hw + 2 * n, hh - n⟩ (by rw [se]; simp [Tri.hasVertex])
  obtain ⟨q1, q2, q3, q4⟩ := hq
  have k1 := k.w1; have k2 := k.h1
  -- relative coordinates
  have s1i : -(n + 1) ≤ 2 * (q.x - hw) := by omega
  have s2i : 2 * (q.x - hw) ≤ n := by omega
  have t1i : -(n + 1) ≤ 2 * (q.y - hh) := by omega
  have t2i : 2 * (q.y - hh) ≤ n := by omega
  have s1q : -((n : ℚ) + 1) ≤ 2 * ((q.x : ℚ) - hw) := by exact_mod_cast s1i
  have s2q : 2 * ((q.x : ℚ) - hw) ≤ n := by exact_mod_cast s2i
  have t1q : -((n : ℚ) + 1) ≤ 2 * ((q.y : ℚ) - hh) := by exact_mod_cast t1i
  have t2q : 2 * ((q.y : ℚ) - hh) ≤ n := by exact_mod_cast t2i
  unfold d2 at hA hB hC hq2 hsv
  simp only at hA hB hC
  push_cast at hA hB hC
  have B := centre_bounds (n := n) (s := (q.x : ℚ) - hw) (t := (q.y : ℚ) - hh) (X := o.x - q.x) (Y := o.y - q.y) n2
    (by linarith) (by linarith) (by linarith) (by linarith)
    (by nlinarith only [hA, hq2]) (by nlinarith only [hB, hq2]) (by nlinarith only [hC, hq2])
  have rb := radius_bound (n := n) (s := (q.x : ℚ) - hw) (t := (q.y : ℚ) - hh) (X := o.x - q.x) (Y := o.y - q.y)
    (r := (o.x - a.x) ^ 2 + (o.y - a.y) ^ 2) n2
    (by linarith) (by linarith) (by linarith) (by linarith) B.1 B.2.1 B.2.2
    (by nlinarith only [hA]) (by nlinarith only [hB]) (by nlinarith only [hC])
  have qx0 : (0 : ℚ) ≤ q.x := by exact_mod_cast q1
  have qy0 : (0 : ℚ) ≤ q.y := by exact_mod_cast q3
  have qxn : (q.x : ℚ) ≤ n := by exact_mod_cast (by omega : q.x ≤ n)
  have qyn : (q.y : ℚ) ≤ n := by exact_mod_cast (by omega : q.y ≤ n)
  have bX := abs_le.mp B.1
  have ra : 1 / 4 ≤ (o.x - a.x) ^ 2 + (o.y - a.y) ^ 2 := by
    have hne := (nondeg_ne nd).1
    have h1 : (1 : ℤ) ≤ (a.x - b.x) ^ 2 + (a.y - b.y) ^ 2 := by
      by_contra hcon
      have z : (a.x - b.x) ^ 2 + (a.y - b.y) ^ 2 ≤ 0 := by omega
      have zx : a.x - b.x = 0 := by nlinarith [sq_nonneg (a.x - b.x), sq_nonneg (a.y - b.y)]
      have zy : a.y - b.y = 0 := by nlinarith [sq_nonneg (a.x - b.x), sq_nonneg (a.y - b.y)]
      exact hne (Pt.ext (by omega) (by omega))
    have h2 : (1 : ℚ) ≤ ((a.x : ℚ) - b.x) ^ 2 + ((a.y : ℚ) - b.y) ^ 2 := by exact_mod_cast h1
    have h3 := hce.1
    unfold d2 at h3
    simp only at h3
    nlinarith only [h2, h3, sq_nonneg (o.x - a.x + (o.x - b.x)), sq_nonneg (o.y - a.y + (o.y - b.y))]
  have RO := radius_ok K (n := n) (ox := o.x) (oy := o.y) (ax := a.x) (ay := a.y) (by linarith) n3
    (abs_le.mpr ⟨by linarith, by linarith⟩) (abs_le.mpr ⟨by linarith [B.2.1], by linarith [B.2.2]⟩) ra rb
  simp only at RO
  simp only at hci
  obtain ⟨cx2, cy2, R0, R1, RX, sq1, sq2⟩ := RO
  exact ⟨o, _, hci, rfl, hce, hq2, hsv, cx2, cy2, B.1, B.2.1, B.2.2, R0, R1,
    RX (o.x - q.x) (by nlinarith only [hq2, sq_nonneg (o.y - q.y)]),
    RX (o.y - q.y) (by nlinarith only [hq2, sq_nonneg (o.x - q.x)]), sq1, sq2⟩

/-- The lookup of a box, from the lookup along the axes. -/
theorem cover_of_axes {F : FloatOps} {p : Nat} (K : FloatOK F p) {w h : Nat} (k : SizeOk w h) {Q : Pt → Prop}
    (H : ∀ a b c q o R, Ok w h a → Ok w h b → Ok w h c → InImg w h q → Q q → CircOK F w h a b c q o R →
      NonDegenerate ⟨a, b, c⟩ →
      (loBox F w (F.r32 (F.r64 o.x)) (F.r32 R) ≤ boxOf F w q.x ∧ boxOf F w q.x < hiBox F w (F.r32 (F.r64 o.x)) (F.r32 R)) ∧
      (loBox F h (F.r32 (F.r64 o.y)) (F.r32 R) ≤ boxOf F h q.y ∧ boxOf F h q.y < hiBox F h (F.r32 (F.r64 o.y)) (F.r32 R))) :
    GeoOK (gridGeo F w h) w h Q := by
  constructor
  · intro q hq
    obtain ⟨x1, x2⟩ := box_range K k.w1 hq.x1 hq.x2
    obtain ⟨y1, y2⟩ := box_range K k.h1 hq.y1 hq.y2
    refine ⟨((boxOf F w q.x).toNat, (boxOf F h q.y).toNat), ?_⟩
    simp only [gridGeo]
    rw [if_pos ⟨x1, x2, y1, y2⟩]
  · intro a b c q kk ha hb hc hq hQ ho hsup hpow hcell
    obtain ⟨o, R, C⟩ := circ_ok K k ha hb hc hq ho hsup hpow
    obtain ⟨AX, AY⟩ := H a b c q o R ha hb hc hq hQ C ((nondeg_iff _).mpr ho)
    simp only [gridGeo] at hcell ⊢
    obtain ⟨x1, x2⟩ := box_range K k.w1 hq.x1 hq.x2
    obtain ⟨y1, y2⟩ := box_range K k.h1 hq.y1 hq.y2
    rw [if_pos ⟨x1, x2, y1, y2⟩] at hcell
    cases hcell
    simp only [decide_eq_true_eq]
    rw [Int.toNat_of_nonneg x1, Int.toNat_of_nonneg y1, C.eq]
    exact ⟨AX.1, AX.2, AY.1, AY.2⟩

/-- **The grid of the code finds every triangle it must find**, when the stored circles are accurate
enough for the size of the image. -/
theorem gridGeo_ok {F : FloatOps} {p : Nat} (K : FloatOK F p) {w h : Nat} (k : SizeOk w h)
    (A : AxisOK F (side w h : ℤ)) : GeoOK (gridGeo F w h) w h (fun _ => True) := by
  refine cover_of_axes K k ?_
  intro a b c q o R ha hb hc hq _ C _
  have hs := side_bounds k
  have n2 : (2 : ℚ) ≤ ((side w h : ℤ) : ℚ) := by exact_mod_cast hs.1
  have bX := abs_le.mp C.bx
  have lx := abs_le.mp C.lx
  have ly := abs_le.mp C.ly
  have cx2 := abs_le.mp C.ex
  have cy2 := abs_le.mp C.ey
  have b1 := C.by1
  have b2 := C.by2
  exact ⟨axis_listed K k.w1 k.w2 (n := (side w h : ℤ)) (x := q.x) (c := F.r64 o.x) (R := R) (by omega) A hq.x1 hq.x2
      (by linarith only [bX.1, cx2.1, n2]) (by linarith only [bX.2, cx2.2]) C.R0 C.R1
      (by linarith only [lx.2, cx2.2]) (by linarith only [lx.1, cx2.1]),
    axis_listed K k.h1 k.h2 (n := (side w h : ℤ)) (x := q.y) (c := F.r64 o.y) (R := R) (by omega) A hq.y1 hq.y2
      (by linarith only [b1, cy2.1]) (by linarith only [b2, cy2.2, n2]) C.R0 C.R1
      (by linarith only [ly.2, cy2.2]) (by linarith only [ly.1, cy2.1])⟩

end Verif.Incr

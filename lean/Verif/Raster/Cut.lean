import Verif.Raster.Edges
import Verif.Float.Round

/-!
# Rounding of the edge computations

For coordinates of int16 size two edges whose exact x coordinates in a row differ are never
exchanged by rounding.
-/

namespace Verif.Raster

open Verif.Incr Verif.Float

/-- Coordinates of int16 size. -/
def Small (p : Pt) : Prop := |p.x| ≤ 2 ^ 15 ∧ |p.y| ≤ 2 ^ 15

/-- Numerator of the exact x coordinate of an edge in a row. -/
def num (a b : Pt) (y : Int) : Int := a.x * (b.y - a.y) + (b.x - a.x) * (y - a.y)

/-- Exact x coordinate of an edge in a row. -/
def exact (a b : Pt) (y : Int) : ℚ := (num a b y : ℚ) / ((b.y - a.y : Int) : ℚ)

/-- Twice the signed area. -/
def iori (a b c : Pt) : Int := (b.x - a.x) * (c.y - a.y) - (b.y - a.y) * (c.x - a.x)

theorem exact_eq {a b : Pt} (h : a.y < b.y) (y : Int) :
    exact a b y = ((a.x - b.x : Int) : ℚ) / ((a.y - b.y : Int) : ℚ) * ((y - a.y : Int) : ℚ) + a.x := by
  have h' : (a.y : ℚ) < b.y := by exact_mod_cast h
  have h1 : (b.y : ℚ) - a.y ≠ 0 := by linarith
  have h2 : (a.y : ℚ) - b.y ≠ 0 := by linarith
  unfold exact num
  push_cast
  field_simp
  ring

theorem edgeAt_id {a b : Pt} (h : a.y < b.y) (y : Int) : edgeAt id a b y = exact a b y := by
  rw [exact_eq h]; rfl

theorem small_diff {a b : Int} {N : Nat} (ha : |a| ≤ 2 ^ N) (hb : |b| ≤ 2 ^ N) : |a - b| ≤ 2 ^ (N + 1) := by
  have := abs_sub a b
  rw [pow_succ]; linarith

theorem slope_abs {a b : Pt} (ha : Small a) (hb : Small b) (h : a.y < b.y) :
    |((a.x - b.x : Int) : ℚ) / ((a.y - b.y : Int) : ℚ)| ≤ 2 ^ 16 := by
  have h1 : |((a.x - b.x : Int) : ℚ)| ≤ 2 ^ 16 := by
    have := small_diff ha.1 hb.1
    rw [← Int.cast_abs]
    exact_mod_cast this
  have h2 : (1 : ℚ) ≤ |((a.y - b.y : Int) : ℚ)| := by
    rw [← Int.cast_abs]
    have : (1 : Int) ≤ |a.y - b.y| := by rw [abs_of_neg (by omega)]; omega
    exact_mod_cast this
  rw [abs_div]
  exact le_trans (div_le_self (abs_nonneg _) h2) h1

theorem rise_abs {a b : Pt} (ha : Small a) (hb : Small b) (h : a.y < b.y) {y : Int} (h1 : a.y ≤ y) (h2 : y ≤ b.y) :
    |((a.x - b.x : Int) : ℚ) / ((a.y - b.y : Int) : ℚ) * ((y - a.y : Int) : ℚ)| ≤ 2 ^ 16 := by
  have g1 : |((a.x - b.x : Int) : ℚ)| ≤ 2 ^ 16 := by
    have := small_diff ha.1 hb.1
    rw [← Int.cast_abs]
    exact_mod_cast this
  have g2 : |((y - a.y : Int) : ℚ)| ≤ |((a.y - b.y : Int) : ℚ)| := by
    rw [← Int.cast_abs, ← Int.cast_abs]
    have : |y - a.y| ≤ |a.y - b.y| := by
      rw [abs_of_nonneg (by omega), abs_of_neg (by omega)]; omega
    exact_mod_cast this
  have g3 : 0 < |((a.y - b.y : Int) : ℚ)| := by
    rw [abs_pos]
    exact_mod_cast (by omega : a.y - b.y ≠ 0)
  rw [abs_mul, abs_div, div_mul_eq_mul_div, div_le_iff₀ g3]
  have := mul_le_mul g1 g2 (abs_nonneg _) (by norm_num)
  linarith

/-- Rounding error of an edge. -/
theorem cut_err {fl : ℚ → ℚ} (R : Rnd 53 fl) {a b : Pt} (ha : Small a) (hb : Small b) (h : a.y < b.y) {y : Int}
    (h1 : a.y ≤ y) (h2 : y ≤ b.y) : |edgeAt fl a b y - exact a b y| ≤ 1 / 2 ^ 35 := by
  rw [exact_eq h]
  have hx : |(a.x : ℚ)| ≤ 2 ^ 15 := by rw [← Int.cast_abs]; exact_mod_cast ha.1
  have hr := rise_abs ha hb h h1 h2
  have hk : (0 : ℚ) ≤ ((y - a.y : Int) : ℚ) := by exact_mod_cast (by omega : 0 ≤ y - a.y)
  unfold edgeAt madd slope
  set q := ((a.x - b.x : Int) : ℚ) / ((a.y - b.y : Int) : ℚ) with hq
  set k := ((y - a.y : Int) : ℚ) with hkk
  have e1 := R.err q
  have e1' : |fl q * k - q * k| ≤ 2 ^ 16 / 2 ^ 53 := by
    rw [← sub_mul, abs_mul, abs_of_nonneg hk]
    have := mul_le_mul_of_nonneg_right e1 hk
    rw [abs_mul, abs_of_nonneg hk] at hr
    rw [div_mul_eq_mul_div] at this
    exact le_trans this (div_le_div_of_nonneg_right hr (by norm_num))
  have a1 : |fl q * k| ≤ 2 ^ 16 + 1 := by
    have := abs_sub_abs_le_abs_sub (fl q * k) (q * k)
    have : (2 : ℚ) ^ 16 / 2 ^ 53 ≤ 1 := by norm_num
    linarith
  have e2 := R.err (fl q * k)
  have e2' : |fl (fl q * k) - fl q * k| ≤ (2 ^ 16 + 1) / 2 ^ 53 := le_trans e2 (div_le_div_of_nonneg_right a1 (by norm_num))
  have a2 : |fl (fl q * k) + a.x| ≤ 2 ^ 16 + 1 + 1 + 2 ^ 15 := by
    have t1 := abs_add_le (fl (fl q * k)) (a.x : ℚ)
    have t2 := abs_sub_abs_le_abs_sub (fl (fl q * k)) (fl q * k)
    have : ((2 : ℚ) ^ 16 + 1) / 2 ^ 53 ≤ 1 := by norm_num
    linarith
  have e3 := R.err (fl (fl q * k) + a.x)
  have e3' : |fl (fl (fl q * k) + a.x) - (fl (fl q * k) + a.x)| ≤ (2 ^ 16 + 1 + 1 + 2 ^ 15) / 2 ^ 53 :=
    le_trans e3 (div_le_div_of_nonneg_right a2 (by norm_num))
  have tot : |fl (fl (fl q * k) + a.x) - (q * k + a.x)| ≤
      (2 ^ 16 + 1 + 1 + 2 ^ 15) / 2 ^ 53 + (2 ^ 16 + 1) / 2 ^ 53 + 2 ^ 16 / 2 ^ 53 := by
    rw [abs_le] at *
    constructor <;> linarith [e1'.1, e1'.2, e2'.1, e2'.2, e3'.1, e3'.2]
  refine le_trans tot ?_
  norm_num

theorem frac_gap {A B c d : Int} (hc : 0 < c) (hd : 0 < d) (h : (A : ℚ) / c < (B : ℚ) / d) :
    (A : ℚ) / c + 1 / (c * d : ℚ) ≤ (B : ℚ) / d := by
  have hc' : (0 : ℚ) < c := by exact_mod_cast hc
  have hd' : (0 : ℚ) < d := by exact_mod_cast hd
  rw [div_lt_div_iff₀ hc' hd'] at h
  have h' : A * d + 1 ≤ B * c := by exact_mod_cast h
  have h'' : (A : ℚ) * d + 1 ≤ B * c := by exact_mod_cast h'
  have : (A : ℚ) / c + 1 / (c * d : ℚ) = (A * d + 1) / (c * d) := by field_simp
  rw [this, div_le_div_iff₀ (by positivity) hd']
  nlinarith

theorem dy_le {a b : Pt} (ha : Small a) (hb : Small b) : ((b.y - a.y : Int) : ℚ) ≤ 2 ^ 16 := by
  have := small_diff hb.2 ha.2
  have := (abs_le.mp this).2
  exact_mod_cast this

theorem gap_ge {c d : ℚ} (hc : 0 < c) (hd : 0 < d) (hc' : c ≤ 2 ^ 16) (hd' : d ≤ 2 ^ 16) : 1 / 2 ^ 32 ≤ 1 / (c * d) := by
  apply one_div_le_one_div_of_le (by positivity)
  have := mul_le_mul hc' hd' hd.le (by norm_num)
  refine le_trans this ?_
  norm_num

/-- Exact edges that differ in a row differ noticeably. -/
theorem exact_gap {a b c d : Pt} (ha : Small a) (hb : Small b) (hc : Small c) (hd : Small d) (h1 : a.y < b.y)
    (h2 : c.y < d.y) {y : Int} (h : exact a b y < exact c d y) : exact a b y + 1 / 2 ^ 32 ≤ exact c d y := by
  unfold exact at *
  have := frac_gap (by omega) (by omega) h
  have g := gap_ge (c := ((b.y - a.y : Int) : ℚ)) (d := ((d.y - c.y : Int) : ℚ))
    (by exact_mod_cast (by omega : 0 < b.y - a.y)) (by exact_mod_cast (by omega : 0 < d.y - c.y)) (dy_le ha hb) (dy_le hc hd)
  linarith

/-- Edges are not exchanged by rounding. -/
theorem cut_lt {fl : ℚ → ℚ} (R : Rnd 53 fl) {a b c d : Pt} (ha : Small a) (hb : Small b) (hc : Small c) (hd : Small d)
    (h1 : a.y < b.y) (h2 : c.y < d.y) {y : Int} (ya : a.y ≤ y) (yb : y ≤ b.y) (yc : c.y ≤ y) (yd : y ≤ d.y)
    (h : exact a b y < exact c d y) : edgeAt fl a b y ≤ edgeAt fl c d y := by
  have g := exact_gap ha hb hc hd h1 h2 h
  have e1 := (abs_le.mp (cut_err R ha hb h1 ya yb)).2
  have e2 := (abs_le.mp (cut_err R hc hd h2 yc yd)).1
  have : (1 : ℚ) / 2 ^ 35 + 1 / 2 ^ 35 ≤ 1 / 2 ^ 32 := by norm_num
  linarith

/-- Slopes that differ still differ after rounding. -/
theorem slope_lt {fl : ℚ → ℚ} (R : Rnd 53 fl) {a b c d : Pt} (ha : Small a) (hb : Small b) (hc : Small c) (hd : Small d)
    (h1 : a.y < b.y) (h2 : c.y < d.y)
    (h : ((a.x - b.x : Int) : ℚ) / ((a.y - b.y : Int) : ℚ) < ((c.x - d.x : Int) : ℚ) / ((c.y - d.y : Int) : ℚ)) :
    slope fl a b < slope fl c d := by
  have flip : ∀ u v : Pt, ((u.x - v.x : Int) : ℚ) / ((u.y - v.y : Int) : ℚ) = ((v.x - u.x : Int) : ℚ) / ((v.y - u.y : Int) : ℚ) := by
    intro u v
    rw [← neg_div_neg_eq]; push_cast; congr 1 <;> ring
  have e1 := R.err (((a.x - b.x : Int) : ℚ) / ((a.y - b.y : Int) : ℚ))
  have e2 := R.err (((c.x - d.x : Int) : ℚ) / ((c.y - d.y : Int) : ℚ))
  have s1 := slope_abs ha hb h1
  have s2 := slope_abs hc hd h2
  have e1' := le_trans e1 (div_le_div_of_nonneg_right s1 (by norm_num))
  have e2' := le_trans e2 (div_le_div_of_nonneg_right s2 (by norm_num))
  have g := gap_ge (c := ((b.y - a.y : Int) : ℚ)) (d := ((d.y - c.y : Int) : ℚ))
    (by exact_mod_cast (by omega : 0 < b.y - a.y)) (by exact_mod_cast (by omega : 0 < d.y - c.y)) (dy_le ha hb) (dy_le hc hd)
  unfold slope
  have h' := h
  rw [flip a b, flip c d] at h'
  have k := frac_gap (by omega) (by omega) h'
  rw [← flip a b, ← flip c d] at k
  have : (2 : ℚ) ^ 16 / 2 ^ 53 + 2 ^ 16 / 2 ^ 53 < 1 / 2 ^ 32 := by norm_num
  rw [abs_le] at e1' e2'
  linarith [e1'.2, e2'.1]

/-! ### Order of the edges of a triangle -/

theorem slope_diff {p q r : Pt} (h1 : p.y < q.y) (h2 : p.y < r.y) :
    ((p.x - q.x : Int) : ℚ) / ((p.y - q.y : Int) : ℚ) - ((p.x - r.x : Int) : ℚ) / ((p.y - r.y : Int) : ℚ) =
      (iori p q r : ℚ) / (((q.y - p.y) * (r.y - p.y) : Int) : ℚ) := by
  have h1' : (p.y : ℚ) < q.y := by exact_mod_cast h1
  have h2' : (p.y : ℚ) < r.y := by exact_mod_cast h2
  have n1 : (p.y : ℚ) - q.y ≠ 0 := by linarith
  have n2 : (p.y : ℚ) - r.y ≠ 0 := by linarith
  have n3 : (q.y : ℚ) - p.y ≠ 0 := by linarith
  have n4 : (r.y : ℚ) - p.y ≠ 0 := by linarith
  unfold iori
  push_cast
  rw [div_sub_div _ _ n1 n2, div_eq_div_iff (mul_ne_zero n1 n2) (mul_ne_zero n3 n4)]
  ring

theorem exact_diff {p q r : Pt} (h1 : p.y < r.y) (h2 : q.y < r.y) (y : Int) :
    exact p r y - exact q r y = (iori q p r : ℚ) * ((r.y - y : Int) : ℚ) / (((r.y - p.y) * (r.y - q.y) : Int) : ℚ) := by
  have h1' : (p.y : ℚ) < r.y := by exact_mod_cast h1
  have h2' : (q.y : ℚ) < r.y := by exact_mod_cast h2
  have n1 : (r.y : ℚ) - p.y ≠ 0 := by linarith
  have n2 : (r.y : ℚ) - q.y ≠ 0 := by linarith
  unfold exact num iori
  push_cast
  rw [div_sub_div _ _ n1 n2, div_eq_div_iff (mul_ne_zero n1 n2) (mul_ne_zero n1 n2)]
  ring

/-- Edges that start at the same vertex are ordered by their slopes. -/
theorem edge_base {fl : ℚ → ℚ} (hm : Monotone fl) {p q r : Pt} (h1 : p.y < q.y) (h2 : p.y < r.y) (h : 0 ≤ iori p q r)
    {y : Int} (hy : p.y ≤ y) : edgeAt fl p r y ≤ edgeAt fl p q y := by
  have d := slope_diff h1 h2
  have hnn : (0 : ℚ) ≤ (iori p q r : ℚ) / (((q.y - p.y) * (r.y - p.y) : Int) : ℚ) := by
    apply div_nonneg
    · exact_mod_cast h
    · have : 0 ≤ (q.y - p.y) * (r.y - p.y) := mul_nonneg (by omega) (by omega)
      exact_mod_cast this
  have s : slope fl p r ≤ slope fl p q := by
    unfold slope; exact hm (by linarith)
  unfold edgeAt madd
  have hk : (0 : ℚ) ≤ ((y - p.y : Int) : ℚ) := by exact_mod_cast (by omega : 0 ≤ y - p.y)
  have := hm (mul_le_mul_of_nonneg_right s hk)
  exact hm (by linarith)

/-- Edges that end at the same vertex are ordered strictly below it. -/
theorem exact_top {p q r : Pt} (h1 : p.y < r.y) (h2 : q.y < r.y) (h : 0 < iori q p r) {y : Int} (hy : y < r.y) :
    exact q r y < exact p r y := by
  have d := exact_diff h1 h2 y
  have : (0 : ℚ) < (iori q p r : ℚ) * ((r.y - y : Int) : ℚ) / (((r.y - p.y) * (r.y - q.y) : Int) : ℚ) := by
    apply div_pos
    · have : 0 < iori q p r * (r.y - y) := mul_pos h (by omega)
      exact_mod_cast this
    · have : 0 < (r.y - p.y) * (r.y - q.y) := mul_pos (by omega) (by omega)
      exact_mod_cast this
  linarith

/-! ### Signed crossings -/

/-- Signed crossing of the directed edge `u v` with the half line to the right of the pixel. -/
def rc (fl : ℚ → ℚ) (x y : Int) (u v : Pt) : ℤ :=
  (if u.y ≤ y ∧ y < v.y ∧ x < trunc (edgeAt fl u v y) then 1 else 0) -
  (if v.y ≤ y ∧ y < u.y ∧ x < trunc (edgeAt fl v u y) then 1 else 0)

theorem rc_anti (fl : ℚ → ℚ) (x y : Int) (u v : Pt) : rc fl x y u v = - rc fl x y v u := by unfold rc; ring

/-- Indicator of being to the left of an edge. -/
def ind (fl : ℚ → ℚ) (u v : Pt) (x y : Int) : ℤ := if x < trunc (edgeAt fl u v y) then 1 else 0

theorem rc_up {fl : ℚ → ℚ} {x y : Int} {u v : Pt} (h1 : u.y ≤ y) (h2 : y < v.y) : rc fl x y u v = ind fl u v x y := by
  unfold rc ind
  rw [if_neg (show ¬ (v.y ≤ y ∧ y < u.y ∧ x < trunc (edgeAt fl v u y)) by omega)]
  simp [h1, h2]

theorem rc_down {fl : ℚ → ℚ} {x y : Int} {u v : Pt} (h1 : v.y ≤ y) (h2 : y < u.y) : rc fl x y u v = - ind fl v u x y := by
  rw [rc_anti, rc_up h1 h2]

theorem rc_off {fl : ℚ → ℚ} {x y : Int} {u v : Pt} (h : (y < u.y ∧ y < v.y) ∨ (u.y ≤ y ∧ v.y ≤ y)) : rc fl x y u v = 0 := by
  unfold rc
  rw [if_neg (by omega), if_neg (by omega)]; rfl

theorem between_ind {fl : ℚ → ℚ} {a b c d : Pt} {y : Int} (h : edgeAt fl a b y ≤ edgeAt fl c d y) (x : Int) :
    (between fl a b c d x y : ℤ) = ind fl c d x y - ind fl a b x y := by
  have := trunc_mono h
  unfold between ind span
  split_ifs <;> omega

/-- What the order of edges needs of the arithmetic, for points satisfying `P`. -/
structure Prec (fl : ℚ → ℚ) (P : Pt → Prop) : Prop where
  mono : Monotone fl
  cut : ∀ {a b c d : Pt}, P a → P b → P c → P d → a.y < b.y → c.y < d.y → ∀ {y : Int}, a.y ≤ y → y ≤ b.y → c.y ≤ y → y ≤ d.y →
    exact a b y < exact c d y → edgeAt fl a b y ≤ edgeAt fl c d y
  slope : ∀ {a b c d : Pt}, P a → P b → P c → P d → a.y < b.y → c.y < d.y →
    ((a.x - b.x : Int) : ℚ) / ((a.y - b.y : Int) : ℚ) < ((c.x - d.x : Int) : ℚ) / ((c.y - d.y : Int) : ℚ) →
    slope fl a b < slope fl c d

theorem prec_rnd {fl : ℚ → ℚ} (R : Rnd 53 fl) : Prec fl Small :=
  ⟨fun a b => R.mono a b, cut_lt R, slope_lt R⟩

theorem prec_id : Prec id (fun _ => True) := by
  refine ⟨fun _ _ h => h, ?_, ?_⟩
  · intro a b c d _ _ _ _ h1 h2 y _ _ _ _ h
    rw [edgeAt_id h1, edgeAt_id h2]; exact h.le
  · intro a b c d _ _ _ _ _ _ h
    exact h

theorem sorted_rc {fl : ℚ → ℚ} {P : Pt → Prop} (Q : Prec fl P) {p0 p1 p2 : Pt} (s0 : P p0) (s1 : P p1) (s2 : P p2)
    (h21 : p2.y ≤ p1.y) (h10 : p1.y ≤ p0.y) (x y : Int) :
    (0 < iori p2 p1 p0 → (sorted3 fl p0 p1 p2 x y : ℤ) = rc fl x y p2 p1 + rc fl x y p1 p0 + rc fl x y p0 p2) ∧
    (iori p2 p1 p0 < 0 → (sorted3 fl p0 p1 p2 x y : ℤ) = -(rc fl x y p2 p1 + rc fl x y p1 p0 + rc fl x y p0 p2)) := by
  have hm : Monotone fl := Q.mono
  have sw : iori p1 p2 p0 = - iori p2 p1 p0 := by unfold iori; ring
  have sw' : iori p2 p0 p1 = - iori p2 p1 p0 := by unfold iori; ring
  unfold sorted3
  by_cases h12 : p1.y = p2.y
  · rw [if_pos h12, rc_off (show (y < p2.y ∧ y < p1.y) ∨ (p2.y ≤ y ∧ p1.y ≤ y) by omega)]
    have hD : iori p2 p1 p0 = (p1.x - p2.x) * (p0.y - p2.y) := by unfold iori; rw [h12]; ring
    by_cases hy : p1.y ≤ y ∧ y < p0.y
    · rw [if_pos hy, rc_up hy.1 hy.2, rc_down (by omega) hy.2]
      constructor
      · intro h
        have hx : p2.x < p1.x := by
          by_contra hc
          have : (p1.x - p2.x) * (p0.y - p2.y) ≤ 0 := mul_nonpos_of_nonpos_of_nonneg (by omega) (by omega)
          omega
        rw [if_pos hx]
        have := Q.cut s2 s0 s1 s0 (by omega) (by omega) (by omega) (by omega) (by omega) (by omega)
          (exact_top (p := p1) (q := p2) (r := p0) (by omega) (by omega) h hy.2)
        rw [between_ind this]; ring
      · intro h
        have hx : ¬ p2.x < p1.x := by
          intro hc
          have : 0 ≤ (p1.x - p2.x) * (p0.y - p2.y) := mul_nonneg (by omega) (by omega)
          omega
        rw [if_neg hx]
        have := Q.cut s1 s0 s2 s0 (by omega) (by omega) (by omega) (by omega) (by omega) (by omega)
          (exact_top (p := p2) (q := p1) (r := p0) (by omega) (by omega) (by omega) hy.2)
        rw [between_ind this]; ring
    · rw [if_neg hy, rc_off (show (y < p1.y ∧ y < p0.y) ∨ (p1.y ≤ y ∧ p0.y ≤ y) by omega),
        rc_off (show (y < p0.y ∧ y < p2.y) ∨ (p0.y ≤ y ∧ p2.y ≤ y) by omega)]
      simp
  · rw [if_neg h12]
    have d := slope_diff (p := p2) (q := p1) (r := p0) (by omega) (by omega)
    have hpos : (0 : ℚ) < (((p1.y - p2.y) * (p0.y - p2.y) : Int) : ℚ) := by
      have : 0 < (p1.y - p2.y) * (p0.y - p2.y) := mul_pos (by omega) (by omega)
      exact_mod_cast this
    have c1 : 0 < iori p2 p1 p0 → ¬ slope fl p2 p1 < slope fl p2 p0 := by
      intro h
      have : (0 : ℚ) < (iori p2 p1 p0 : ℚ) / (((p1.y - p2.y) * (p0.y - p2.y) : Int) : ℚ) :=
        div_pos (by exact_mod_cast h) hpos
      rw [not_lt]
      unfold slope
      exact hm (by linarith)
    have c2 : iori p2 p1 p0 < 0 → slope fl p2 p1 < slope fl p2 p0 := by
      intro h
      have : (iori p2 p1 p0 : ℚ) / (((p1.y - p2.y) * (p0.y - p2.y) : Int) : ℚ) < 0 :=
        div_neg_of_neg_of_pos (by exact_mod_cast h) hpos
      exact Q.slope s2 s1 s2 s0 (by omega) (by omega) (by linarith)
    by_cases hy1 : p2.y ≤ y ∧ y < p1.y
    · rw [if_pos hy1, rc_up hy1.1 hy1.2, rc_off (show (y < p1.y ∧ y < p0.y) ∨ (p1.y ≤ y ∧ p0.y ≤ y) by omega),
        rc_down (by omega) (by omega)]
      constructor
      · intro h
        rw [if_neg (c1 h), between_ind (edge_base hm (by omega) (by omega) (by omega) hy1.1)]; ring
      · intro h
        rw [if_pos (c2 h), between_ind (edge_base hm (by omega) (by omega) (by omega) hy1.1)]; ring
    · rw [if_neg hy1]
      by_cases hy2 : p1.y ≤ y ∧ y < p0.y
      · rw [if_pos hy2, rc_up hy2.1 hy2.2, rc_off (show (y < p2.y ∧ y < p1.y) ∨ (p2.y ≤ y ∧ p1.y ≤ y) by omega),
          rc_down (by omega) (by omega)]
        constructor
        · intro h
          rw [if_neg (c1 h)]
          have := Q.cut s2 s0 s1 s0 (by omega) (by omega) (by omega) (by omega) (by omega) (by omega)
            (exact_top (p := p1) (q := p2) (r := p0) (by omega) (by omega) h hy2.2)
          rw [between_ind this]; ring
        · intro h
          rw [if_pos (c2 h)]
          have := Q.cut s1 s0 s2 s0 (by omega) (by omega) (by omega) (by omega) (by omega) (by omega)
            (exact_top (p := p2) (q := p1) (r := p0) (by omega) (by omega) (by omega) hy2.2)
          rw [between_ind this]; ring
      · rw [if_neg hy2, rc_off (show (y < p2.y ∧ y < p1.y) ∨ (p2.y ≤ y ∧ p1.y ≤ y) by omega),
          rc_off (show (y < p1.y ∧ y < p0.y) ∨ (p1.y ≤ y ∧ p0.y ≤ y) by omega),
          rc_off (show (y < p0.y ∧ y < p2.y) ∨ (p0.y ≤ y ∧ p2.y ≤ y) by omega)]
        simp

end Verif.Raster

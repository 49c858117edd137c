import Verif.Incr.Geom
import Verif.Incr.PMap
import Mathlib.Tactic.FinCases
import Mathlib.Data.Fin.VecNotation

/-!
# The in-circle determinant of int16 points fits in int64

Over the square `[-1,1]^2` the determinant with rows `(x, y, x^2 + y^2, 1)` is at most 8.  The
proof moves every point with a positive cofactor to a corner of the square (the determinant is convex in
that point) and then sums up what is left.  For int16 coordinates this gives `65535^4 / 2 < 2^63`.
-/

namespace Verif.Incr.Det

/-- A point with its cofactor. -/
structure Q where
  o : ℚ
  x : ℚ
  y : ℚ

/-- Twice the signed area. -/
def ar (a b c : Q) : ℚ := (b.x - a.x) * (c.y - a.y) - (c.x - a.x) * (b.y - a.y)

def Q.Box (q : Q) : Prop := (-1 ≤ q.x ∧ q.x ≤ 1) ∧ (-1 ≤ q.y ∧ q.y ≤ 1)
def Q.Corner (q : Q) : Prop := (q.x = 1 ∨ q.x = -1) ∧ (q.y = 1 ∨ q.y = -1)
def Q.val (q : Q) : ℚ := -q.o * (2 - q.x ^ 2 - q.y ^ 2)

/-- What is used of the cofactors; symmetric in the four points. -/
structure Cfg (a b c d : Q) : Prop where
  ba : a.Box
  bb : b.Box
  bc : c.Box
  bd : d.Box
  s0 : a.o + b.o + c.o + d.o = 0
  sx : a.o * a.x + b.o * b.x + c.o * c.x + d.o * d.x = 0
  sy : a.o * a.y + b.o * b.y + c.o * c.y + d.o * d.y = 0
  ra : a.o ^ 2 = ar b c d ^ 2
  rb : b.o ^ 2 = ar a c d ^ 2
  rc : c.o ^ 2 = ar a b d ^ 2
  rd : d.o ^ 2 = ar a b c ^ 2

theorem Cfg.s12 {a b c d : Q} (h : Cfg a b c d) : Cfg b a c d :=
  ⟨h.bb, h.ba, h.bc, h.bd, by linarith [h.s0], by linarith [h.sx], by linarith [h.sy], h.rb, h.ra,
    by rw [h.rc]; unfold ar; ring, by rw [h.rd]; unfold ar; ring⟩

theorem Cfg.s23 {a b c d : Q} (h : Cfg a b c d) : Cfg a c b d :=
  ⟨h.ba, h.bc, h.bb, h.bd, by linarith [h.s0], by linarith [h.sx], by linarith [h.sy],
    by rw [h.ra]; unfold ar; ring, h.rc, h.rb, by rw [h.rd]; unfold ar; ring⟩

theorem Cfg.s34 {a b c d : Q} (h : Cfg a b c d) : Cfg a b d c :=
  ⟨h.ba, h.bb, h.bd, h.bc, by linarith [h.s0], by linarith [h.sx], by linarith [h.sy],
    by rw [h.ra]; unfold ar; ring, by rw [h.rb]; unfold ar; ring, h.rd, h.rc⟩

/-- Twice the area of a triangle in the square is at most 4. -/
theorem ar_le {a b c : Q} (ha : a.Box) (hb : b.Box) (hc : c.Box) : ar a b c ≤ 4 := by
  obtain ⟨⟨a1, a2⟩, a3, a4⟩ := ha
  obtain ⟨⟨b1, b2⟩, b3, b4⟩ := hb
  obtain ⟨⟨c1, c2⟩, c3, c4⟩ := hc
  have e : ar a b c = a.x * (b.y - c.y) + (b.x * (c.y - a.y) + c.x * (a.y - b.y)) := by unfold ar; ring
  rw [e]
  have l : ∀ x t : ℚ, -1 ≤ x → x ≤ 1 → x * t ≤ |t| := by
    intro x t h1 h2
    rcases abs_cases t with ⟨h, _⟩ | ⟨h, _⟩ <;> rw [h] <;> nlinarith
  have h1 := l a.x (b.y - c.y) a1 a2
  have h2 := l b.x (c.y - a.y) b1 b2
  have h3 := l c.x (a.y - b.y) c1 c2
  rcases abs_cases (b.y - c.y) with ⟨e1, _⟩ | ⟨e1, _⟩ <;> rcases abs_cases (c.y - a.y) with ⟨e2, _⟩ | ⟨e2, _⟩ <;>
    rcases abs_cases (a.y - b.y) with ⟨e3, _⟩ | ⟨e3, _⟩ <;> rw [e1] at h1 <;> rw [e2] at h2 <;> rw [e3] at h3 <;> linarith

theorem ar_sq {a b c : Q} (ha : a.Box) (hb : b.Box) (hc : c.Box) {o : ℚ} (h : o ^ 2 = ar a b c ^ 2) : -o ≤ 4 := by
  have h1 := ar_le ha hb hc
  have h2 := ar_le hb ha hc
  have e : ar b a c = - ar a b c := by unfold ar; ring
  rw [e] at h2
  nlinarith

/-- A coordinate near a side of the square. -/
theorem side_le {s x : ℚ} (hs : s = 1 ∨ s = -1) (h1 : -1 ≤ x) (h2 : x ≤ 1) :
    0 ≤ 1 - s * x ∧ 1 - x ^ 2 ≤ 2 * (1 - s * x) := by
  rcases hs with rfl | rfl <;> constructor <;> nlinarith

theorem m_nonneg {q : Q} (h : q.Box) : 0 ≤ 2 - q.x ^ 2 - q.y ^ 2 ∧ 2 - q.x ^ 2 - q.y ^ 2 ≤ 2 := by
  obtain ⟨⟨a1, a2⟩, a3, a4⟩ := h
  constructor <;> nlinarith

theorem val_corner {q : Q} (h : q.Corner) : q.val = 0 := by
  unfold Q.val
  have h1 : q.x ^ 2 = 1 := by rcases h.1 with e | e <;> rw [e] <;> norm_num
  have h2 : q.y ^ 2 = 1 := by rcases h.2 with e | e <;> rw [e] <;> norm_num
  rw [h1, h2]; ring

/-- No positive cofactor. -/
theorem case0 {a b c d : Q} (C : Cfg a b c d) (ha : a.o ≤ 0) (hb : b.o ≤ 0) (hc : c.o ≤ 0) (hd : d.o ≤ 0) :
    a.val + b.val + c.val + d.val ≤ 8 := by
  have h0 := C.s0
  have ea : a.o = 0 := by linarith
  have eb : b.o = 0 := by linarith
  have ec : c.o = 0 := by linarith
  have ed : d.o = 0 := by linarith
  unfold Q.val
  rw [ea, eb, ec, ed]; norm_num

/-- One positive cofactor, at a corner. -/
theorem case1 {a b c d : Q} (C : Cfg a b c d) (ka : a.Corner) (hb : b.o ≤ 0) (hc : c.o ≤ 0) (hd : d.o ≤ 0) :
    a.val + b.val + c.val + d.val ≤ 8 := by
  rw [val_corner ka]
  have e1 : a.x * a.x = 1 := by rcases ka.1 with e | e <;> rw [e] <;> norm_num
  have e2 : a.y * a.y = 1 := by rcases ka.2 with e | e <;> rw [e] <;> norm_num
  have key : b.o * (2 - a.x * b.x - a.y * b.y) + c.o * (2 - a.x * c.x - a.y * c.y) + d.o * (2 - a.x * d.x - a.y * d.y) = 0 := by
    linear_combination 2 * C.s0 - a.x * C.sx - a.y * C.sy + a.o * e1 + a.o * e2
  have bound : ∀ q : Q, q.Box → q.o ≤ 0 → q.val ≤ -2 * (q.o * (2 - a.x * q.x - a.y * q.y)) := by
    intro q hq ho
    obtain ⟨_, l1⟩ := side_le ka.1 hq.1.1 hq.1.2
    obtain ⟨_, l2⟩ := side_le ka.2 hq.2.1 hq.2.2
    unfold Q.val
    nlinarith
  have := bound b C.bb hb
  have := bound c C.bc hc
  have := bound d C.bd hd
  linarith

/-- Two positive cofactors at corners with equal first coordinates. -/
theorem case2x {a b c d : Q} (C : Cfg a b c d) (ka : a.Corner) (kb : b.Corner) (he : a.x = b.x)
    (hc : c.o ≤ 0) (hd : d.o ≤ 0) : a.val + b.val + c.val + d.val ≤ 8 := by
  rw [val_corner ka, val_corner kb]
  have e1 : a.x * a.x = 1 := by rcases ka.1 with e | e <;> rw [e] <;> norm_num
  have key : c.o * (1 - a.x * c.x) + d.o * (1 - a.x * d.x) = 0 := by
    have h1 := C.sx
    rw [← he] at h1
    linear_combination C.s0 - a.x * h1 + (a.o + b.o) * e1
  have bound : ∀ q : Q, q.Box → q.o ≤ 0 → q.val ≤ -2 * (q.o * (1 - a.x * q.x)) - q.o := by
    intro q hq ho
    obtain ⟨_, l1⟩ := side_le ka.1 hq.1.1 hq.1.2
    unfold Q.val
    nlinarith [sq_nonneg q.y]
  have := bound c C.bc hc
  have := bound d C.bd hd
  have := ar_sq C.ba C.bb C.bd C.rc
  have := ar_sq C.ba C.bb C.bc C.rd
  linarith

theorem case2y {a b c d : Q} (C : Cfg a b c d) (ka : a.Corner) (kb : b.Corner) (he : a.y = b.y)
    (hc : c.o ≤ 0) (hd : d.o ≤ 0) : a.val + b.val + c.val + d.val ≤ 8 := by
  rw [val_corner ka, val_corner kb]
  have e1 : a.y * a.y = 1 := by rcases ka.2 with e | e <;> rw [e] <;> norm_num
  have key : c.o * (1 - a.y * c.y) + d.o * (1 - a.y * d.y) = 0 := by
    have h1 := C.sy
    rw [← he] at h1
    linear_combination C.s0 - a.y * h1 + (a.o + b.o) * e1
  have bound : ∀ q : Q, q.Box → q.o ≤ 0 → q.val ≤ -2 * (q.o * (1 - a.y * q.y)) - q.o := by
    intro q hq ho
    obtain ⟨_, l1⟩ := side_le ka.2 hq.2.1 hq.2.2
    unfold Q.val
    nlinarith [sq_nonneg q.x]
  have := bound c C.bc hc
  have := bound d C.bd hd
  have := ar_sq C.ba C.bb C.bd C.rc
  have := ar_sq C.ba C.bb C.bc C.rd
  linarith

/-- Two positive cofactors at opposite corners. -/
theorem case2d {a b c d : Q} (C : Cfg a b c d) (ka : a.Corner) (kb : b.Corner) (hx : b.x = -a.x) (hy : b.y = -a.y)
    (hc : c.o ≤ 0) (hd : d.o ≤ 0) : a.val + b.val + c.val + d.val ≤ 8 := by
  rw [val_corner ka, val_corner kb]
  have e1 : a.x ^ 2 = 1 := by rcases ka.1 with e | e <;> rw [e] <;> norm_num
  have e2 : a.y ^ 2 = 1 := by rcases ka.2 with e | e <;> rw [e] <;> norm_num
  -- the cofactor of one point is twice the distance of the other from the diagonal
  have hr : ∀ q : Q, ar a b q ^ 2 = 4 * (a.y * q.x - a.x * q.y) ^ 2 := by
    intro q; unfold ar; rw [hx, hy]; ring
  have rc := C.rc
  have rd := C.rd
  rw [hr] at rc rd
  have dist : ∀ q : Q, (a.y * q.x - a.x * q.y) ^ 2 ≤ 2 * (q.x ^ 2 + q.y ^ 2) := by
    intro q
    have : 2 * (q.x ^ 2 + q.y ^ 2) - (a.y * q.x - a.x * q.y) ^ 2 =
        (a.x * q.x + a.y * q.y) ^ 2 + (q.x ^ 2 + q.y ^ 2) * (2 - a.x ^ 2 - a.y ^ 2) := by ring
    rw [e1, e2] at this
    have := sq_nonneg (a.x * q.x + a.y * q.y)
    linarith
  have dc := dist c
  have dd := dist d
  have bc := ar_sq C.ba C.bb C.bd C.rc
  have bd := ar_sq C.ba C.bb C.bc C.rd
  unfold Q.val
  generalize hs : -d.o / 2 = s
  generalize ht : -c.o / 2 = t
  have ec : c.o = -2 * t := by linarith
  have ed : d.o = -2 * s := by linarith
  rw [ec] at rc bc hc ⊢
  rw [ed] at rd bd hd ⊢
  have s0 : 0 ≤ s := by linarith
  have t0 : 0 ≤ t := by linarith
  have s2 : s ≤ 2 := by linarith
  have t2 : t ≤ 2 := by linarith
  have mc : 2 - c.x ^ 2 - c.y ^ 2 ≤ 2 - s ^ 2 / 2 := by nlinarith
  have md : 2 - d.x ^ 2 - d.y ^ 2 ≤ 2 - t ^ 2 / 2 := by nlinarith
  have h1 : 2 * t * (2 - c.x ^ 2 - c.y ^ 2) ≤ 2 * t * (2 - s ^ 2 / 2) := mul_le_mul_of_nonneg_left mc (by linarith)
  have h2 : 2 * s * (2 - d.x ^ 2 - d.y ^ 2) ≤ 2 * s * (2 - t ^ 2 / 2) := mul_le_mul_of_nonneg_left md (by linarith)
  have h3 : 2 * t * (2 - s ^ 2 / 2) + 2 * s * (2 - t ^ 2 / 2) ≤ 8 := by
    have hst := mul_nonneg s0 t0
    rcases le_total 2 (s + t) with h | h
    · nlinarith [mul_nonneg (sub_nonneg.mpr s2) (sub_nonneg.mpr t2), mul_nonneg hst (sub_nonneg.mpr h)]
    · nlinarith [mul_nonneg hst (add_nonneg s0 t0)]
  linarith

theorem case2 {a b c d : Q} (C : Cfg a b c d) (ka : a.Corner) (kb : b.Corner)
    (hc : c.o ≤ 0) (hd : d.o ≤ 0) : a.val + b.val + c.val + d.val ≤ 8 := by
  by_cases hx : a.x = b.x
  · exact case2x C ka kb hx hc hd
  by_cases hy : a.y = b.y
  · exact case2y C ka kb hy hc hd
  refine case2d C ka kb ?_ ?_ hc hd
  · rcases ka.1 with e | e <;> rcases kb.1 with e' | e' <;> rw [e, e'] at hx ⊢ <;> first | exact absurd rfl hx | norm_num
  · rcases ka.2 with e | e <;> rcases kb.2 with e' | e' <;> rw [e, e'] at hy ⊢ <;> first | exact absurd rfl hy | norm_num

theorem case3 {a b c d : Q} (C : Cfg a b c d) (ka : a.Corner) (kb : b.Corner) (kc : c.Corner)
    (hd : d.o ≤ 0) : a.val + b.val + c.val + d.val ≤ 8 := by
  rw [val_corner ka, val_corner kb, val_corner kc]
  have bd := ar_sq C.ba C.bb C.bc C.rd
  obtain ⟨m1, m2⟩ := m_nonneg C.bd
  unfold Q.val
  nlinarith

theorem final {a b c d : Q} (C : Cfg a b c d) (ha : a.Corner ∨ a.o ≤ 0) (hb : b.Corner ∨ b.o ≤ 0)
    (hc : c.Corner ∨ c.o ≤ 0) (hd : d.Corner ∨ d.o ≤ 0) : a.val + b.val + c.val + d.val ≤ 8 := by
  rcases ha with ha | ha <;> rcases hb with hb | hb <;> rcases hc with hc | hc <;> rcases hd with hd | hd
  · rw [val_corner ha, val_corner hb, val_corner hc, val_corner hd]; norm_num
  · exact case3 C ha hb hc hd
  · have := case3 C.s34 ha hb hd hc; linarith
  · exact case2 C ha hb hc hd
  · have := case3 C.s23.s34 ha hc hd hb; linarith
  · have := case2 C.s23 ha hc hb hd; linarith
  · have := case2 C.s34.s23 ha hd hb hc; linarith
  · exact case1 C ha hb hc hd
  · have := case3 C.s12.s23.s34 hb hc hd ha; linarith
  · have := case2 C.s12.s23 hb hc ha hd; linarith
  · have := case2 C.s34.s12.s23 hb hd ha hc; linarith
  · have := case1 C.s12 hb ha hc hd; linarith
  · have := case2 C.s23.s34.s12.s23 hc hd ha hb; linarith
  · have := case1 C.s23.s12 hc ha hb hd; linarith
  · have := case1 C.s34.s23.s12 hd ha hb hc; linarith
  · exact case0 C ha hb hc hd

/-! ### The determinant -/

/-- Coordinates of four points. -/
abbrev Pts := Fin 4 → ℚ × ℚ

/-- Cofactors of the column `x^2 + y^2`. -/
def cof (p : Pts) : Fin 4 → ℚ
  | 0 => ((p 2).1 - (p 1).1) * ((p 3).2 - (p 1).2) - ((p 3).1 - (p 1).1) * ((p 2).2 - (p 1).2)
  | 1 => -(((p 2).1 - (p 0).1) * ((p 3).2 - (p 0).2) - ((p 3).1 - (p 0).1) * ((p 2).2 - (p 0).2))
  | 2 => ((p 1).1 - (p 0).1) * ((p 3).2 - (p 0).2) - ((p 3).1 - (p 0).1) * ((p 1).2 - (p 0).2)
  | 3 => -(((p 1).1 - (p 0).1) * ((p 2).2 - (p 0).2) - ((p 2).1 - (p 0).1) * ((p 1).2 - (p 0).2))

def nrm (q : ℚ × ℚ) : ℚ := q.1 ^ 2 + q.2 ^ 2

def det4 (p : Pts) : ℚ := cof p 0 * nrm (p 0) + cof p 1 * nrm (p 1) + cof p 2 * nrm (p 2) + cof p 3 * nrm (p 3)

def BoxP (q : ℚ × ℚ) : Prop := (-1 ≤ q.1 ∧ q.1 ≤ 1) ∧ (-1 ≤ q.2 ∧ q.2 ≤ 1)
def CornerP (q : ℚ × ℚ) : Prop := (q.1 = 1 ∨ q.1 = -1) ∧ (q.2 = 1 ∨ q.2 = -1)

theorem CornerP.box {q : ℚ × ℚ} (h : CornerP q) : BoxP q := by
  obtain ⟨h1 | h1, h2 | h2⟩ := h <;> unfold BoxP <;> rw [h1, h2] <;> norm_num

def q (p : Pts) (i : Fin 4) : Q := ⟨cof p i, (p i).1, (p i).2⟩

theorem cfg (p : Pts) (hb : ∀ i, BoxP (p i)) : Cfg (q p 0) (q p 1) (q p 2) (q p 3) := by
  refine ⟨hb 0, hb 1, hb 2, hb 3, ?_, ?_, ?_, ?_, ?_, ?_, ?_⟩ <;> simp only [q, cof, ar] <;> ring

theorem det_val (p : Pts) : det4 p = (q p 0).val + (q p 1).val + (q p 2).val + (q p 3).val := by
  simp only [det4, q, Q.val, cof, nrm]; ring

/-- Moving a point with nonnegative cofactor. -/
theorem convex {o l r x : ℚ} (ho : 0 ≤ o) (h1 : -1 ≤ x) (h2 : x ≤ 1) :
    o * x ^ 2 + l * x + r ≤ o * 1 ^ 2 + l * 1 + r ∨ o * x ^ 2 + l * x + r ≤ o * (-1) ^ 2 + l * (-1) + r := by
  have hx : x ^ 2 ≤ 1 := by nlinarith
  have hox := mul_le_mul_of_nonneg_left hx ho
  rcases le_total 0 l with h | h
  · left; have := mul_le_mul_of_nonneg_left h2 h; linarith
  · right; have := mul_le_mul_of_nonpos_left h1 h; linarith

theorem det_update (p : Pts) (i : Fin 4) : ∃ l r k : ℚ, ∀ v : ℚ × ℚ,
    det4 (Function.update p i v) = cof p i * v.1 ^ 2 + cof p i * v.2 ^ 2 + l * v.1 + r * v.2 + k := by
  fin_cases i
  · refine ⟨?l, ?r, ?k, fun v => ?_⟩
    case l => exact -((p 2).2 - (p 3).2) * nrm (p 1) + ((p 1).2 - (p 3).2) * nrm (p 2) - ((p 1).2 - (p 2).2) * nrm (p 3)
    case r => exact ((p 2).1 - (p 3).1) * nrm (p 1) - ((p 1).1 - (p 3).1) * nrm (p 2) + ((p 1).1 - (p 2).1) * nrm (p 3)
    case k => exact det4 (Function.update p 0 (0, 0))
    simp [det4, cof, nrm]; ring
  · refine ⟨?l, ?r, ?k, fun v => ?_⟩
    case l => exact ((p 2).2 - (p 3).2) * nrm (p 0) - ((p 0).2 - (p 3).2) * nrm (p 2) + ((p 0).2 - (p 2).2) * nrm (p 3)
    case r => exact -((p 2).1 - (p 3).1) * nrm (p 0) + ((p 0).1 - (p 3).1) * nrm (p 2) - ((p 0).1 - (p 2).1) * nrm (p 3)
    case k => exact det4 (Function.update p 1 (0, 0))
    simp [det4, cof, nrm]; ring
  · refine ⟨?l, ?r, ?k, fun v => ?_⟩
    case l => exact -((p 1).2 - (p 3).2) * nrm (p 0) + ((p 0).2 - (p 3).2) * nrm (p 1) - ((p 0).2 - (p 1).2) * nrm (p 3)
    case r => exact ((p 1).1 - (p 3).1) * nrm (p 0) - ((p 0).1 - (p 3).1) * nrm (p 1) + ((p 0).1 - (p 1).1) * nrm (p 3)
    case k => exact det4 (Function.update p 2 (0, 0))
    simp [det4, cof, nrm]; ring
  · refine ⟨?l, ?r, ?k, fun v => ?_⟩
    case l => exact ((p 1).2 - (p 2).2) * nrm (p 0) - ((p 0).2 - (p 2).2) * nrm (p 1) + ((p 0).2 - (p 1).2) * nrm (p 2)
    case r => exact -((p 1).1 - (p 2).1) * nrm (p 0) + ((p 0).1 - (p 2).1) * nrm (p 1) - ((p 0).1 - (p 1).1) * nrm (p 2)
    case k => exact det4 (Function.update p 3 (0, 0))
    simp [det4, cof, nrm]; ring

theorem push (p : Pts) (i : Fin 4) (hb : BoxP (p i)) (ho : 0 ≤ cof p i) :
    ∃ v, CornerP v ∧ det4 p ≤ det4 (Function.update p i v) := by
  obtain ⟨l, r, k, hu⟩ := det_update p i
  have h0 := hu (p i)
  rw [Function.update_eq_self] at h0
  have cx := convex (l := l) (r := 0) ho hb.1.1 hb.1.2
  have cy := convex (l := r) (r := 0) ho hb.2.1 hb.2.2
  rcases cx with cx | cx <;> rcases cy with cy | cy
  · exact ⟨(1, 1), ⟨Or.inl rfl, Or.inl rfl⟩, by rw [hu, h0]; simp only; linarith⟩
  · exact ⟨(1, -1), ⟨Or.inl rfl, Or.inr rfl⟩, by rw [hu, h0]; simp only; linarith⟩
  · exact ⟨(-1, 1), ⟨Or.inr rfl, Or.inl rfl⟩, by rw [hu, h0]; simp only; linarith⟩
  · exact ⟨(-1, -1), ⟨Or.inr rfl, Or.inr rfl⟩, by rw [hu, h0]; simp only; linarith⟩

theorem det_le_aux : ∀ (S : Finset (Fin 4)) (p : Pts), (∀ i, BoxP (p i)) → (∀ i, i ∉ S → CornerP (p i)) → det4 p ≤ 8 := by
  intro S
  induction S using Finset.strongInduction with
  | H S ih =>
    intro p hb hc
    by_cases hall : ∀ i, CornerP (p i) ∨ cof p i ≤ 0
    · rw [det_val]
      exact final (cfg p hb) (hall 0) (hall 1) (hall 2) (hall 3)
    · push Not at hall
      obtain ⟨i, h1, h2⟩ := hall
      have hi : i ∈ S := by by_contra hn; exact h1 (hc i hn)
      obtain ⟨v, hv, hle⟩ := push p i (hb i) h2.le
      refine hle.trans (ih (S.erase i) (Finset.erase_ssubset hi) _ ?_ ?_)
      · intro j
        by_cases hj : j = i
        · subst hj; simpa using hv.box
        · rw [Function.update_of_ne hj]; exact hb j
      · intro j hj
        by_cases hji : j = i
        · subst hji; simpa using hv
        · rw [Function.update_of_ne hji]
          exact hc j (fun hS => hj (Finset.mem_erase.mpr ⟨hji, hS⟩))

theorem det_le (p : Pts) (hb : ∀ i, BoxP (p i)) : det4 p ≤ 8 :=
  det_le_aux Finset.univ p hb (fun i hi => absurd (Finset.mem_univ i) hi)

/-- For int16 coordinates the in-circle determinant is computed exactly. -/
theorem inCircleDet_exact {a b c d : Pt} (ha : I16 a) (hb : I16 b) (hc : I16 c) (hd : I16 d) :
    inCircleDet a b c d =
      ((a.x - d.x) ^ 2 + (a.y - d.y) ^ 2) * ((b.x - d.x) * (c.y - d.y) - (c.x - d.x) * (b.y - d.y)) +
      ((b.x - d.x) ^ 2 + (b.y - d.y) ^ 2) * ((c.x - d.x) * (a.y - d.y) - (a.x - d.x) * (c.y - d.y)) +
      ((c.x - d.x) ^ 2 + (c.y - d.y) ^ 2) * ((a.x - d.x) * (b.y - d.y) - (b.x - d.x) * (a.y - d.y)) := by
  set z := ((a.x - d.x) ^ 2 + (a.y - d.y) ^ 2) * ((b.x - d.x) * (c.y - d.y) - (c.x - d.x) * (b.y - d.y)) +
      ((b.x - d.x) ^ 2 + (b.y - d.y) ^ 2) * ((c.x - d.x) * (a.y - d.y) - (a.x - d.x) * (c.y - d.y)) +
      ((c.x - d.x) ^ 2 + (c.y - d.y) ^ 2) * ((a.x - d.x) * (b.y - d.y) - (b.x - d.x) * (a.y - d.y)) with hz
  let f : Pt → ℚ × ℚ := fun p => ((2 * p.x + 1) / 65535, (2 * p.y + 1) / 65535)
  have fb : ∀ p, I16 p → BoxP (f p) := by
    rintro p ⟨h1, h2, h3, h4⟩
    have h1 : (-32768 : ℚ) ≤ p.x := by exact_mod_cast h1
    have h2 : (p.x : ℚ) ≤ 32767 := by exact_mod_cast h2
    have h3 : (-32768 : ℚ) ≤ p.y := by exact_mod_cast h3
    have h4 : (p.y : ℚ) ≤ 32767 := by exact_mod_cast h4
    refine ⟨⟨?_, ?_⟩, ?_, ?_⟩
    · rw [le_div_iff₀ (by norm_num)]; linarith
    · rw [div_le_iff₀ (by norm_num)]; linarith
    · rw [le_div_iff₀ (by norm_num)]; linarith
    · rw [div_le_iff₀ (by norm_num)]; linarith
  have B1 := det_le ![f a, f b, f c, f d] (by
    intro i; fin_cases i
    exacts [fb a ha, fb b hb, fb c hc, fb d hd])
  have B2 := det_le ![f b, f a, f c, f d] (by
    intro i; fin_cases i
    exacts [fb b hb, fb a ha, fb c hc, fb d hd])
  have e1 : det4 ![f a, f b, f c, f d] = (z : ℚ) * (16 / 65535 ^ 4) := by
    simp only [det4, cof, nrm, f, hz]
    push_cast
    simp
    ring
  have e2 : det4 ![f b, f a, f c, f d] = -(z : ℚ) * (16 / 65535 ^ 4) := by
    simp only [det4, cof, nrm, f, hz]
    push_cast
    simp
    ring
  rw [e1] at B1
  rw [e2] at B2
  have u1 : (z : ℚ) < 9223372036854775808 := by norm_num at B1 ⊢; linarith
  have u2 : (-9223372036854775808 : ℚ) < z := by norm_num at B2 ⊢; linarith
  have v1 : z < 9223372036854775808 := by exact_mod_cast u1
  have v2 : -9223372036854775808 < z := by exact_mod_cast u2
  have : inCircleDet a b c d = w64 z := by
    unfold inCircleDet
    rw [hz]
    ring_nf
  rw [this, w64_id (by omega) (by omega)]

theorem orientation_exact {a b c : Pt} (ha : I16 a) (hb : I16 b) (hc : I16 c) :
    orientation a b c = (a.x - c.x) * (b.y - c.y) - (b.x - c.x) * (a.y - c.y) := by
  obtain ⟨a1, a2, a3, a4⟩ := ha
  obtain ⟨b1, b2, b3, b4⟩ := hb
  obtain ⟨c1, c2, c3, c4⟩ := hc
  have h1 : |a.x - c.x| ≤ 65535 := abs_le.mpr ⟨by omega, by omega⟩
  have h2 : |b.y - c.y| ≤ 65535 := abs_le.mpr ⟨by omega, by omega⟩
  have h3 : |b.x - c.x| ≤ 65535 := abs_le.mpr ⟨by omega, by omega⟩
  have h4 : |a.y - c.y| ≤ 65535 := abs_le.mpr ⟨by omega, by omega⟩
  have h := abs_le.mp (abs_sub_le' (abs_mul_le' h1 h2) (abs_mul_le' h3 h4))
  unfold orientation
  exact w64_id (by omega) (by omega)

end Verif.Incr.Det

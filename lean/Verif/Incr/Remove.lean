import Verif.Incr.Ears
import Verif.Incr.AreaBox
import Verif.Tri.Gap

/-!
# Refinement of `Remove`
-/

namespace Verif.Incr

open Verif.Tri

/-- Relative error up to which the ears of an image of longest side `n` may be misjudged. -/
def earErr (n : Nat) : ℚ := 1 / (31 / 2 * (n : ℚ) ^ 4 + 192 * (n : ℚ) ^ 3)

/-- Bound on the integers in the scores, except for the ear of all three corners of the bounding
triangle. -/
def incMax (n : Nat) : Int := 30 * (n : Int) ^ 4 + 60 * (n : Int) ^ 3

/-- The rounding `fl` keeps the ear scores of an image of longest side `n` in order: the integers
computed by `inCircle` and `orientation` are not rounded (they are at most `incMax n`, or multiples
of 4 and at most `4 * incMax n`), and rounded quotients are in the order of
the quotients up to the relative error `earErr n`. -/
structure Faithful (fl : ℚ → ℚ) (n : Nat) : Prop where
  int : ∀ i : Int, 0 ≤ i → (i ≤ incMax n ∨ 4 ∣ i ∧ i ≤ 4 * incMax n) → fl i = i
  mono : ∀ x y, x ≤ y → fl x ≤ fl y
  near : 0 < n → ∀ x y, 0 ≤ x → 0 ≤ y → fl x ≤ fl y → (1 - earErr n) * x ≤ y

theorem earErr_nonneg (n : Nat) : 0 ≤ earErr n := by unfold earErr; positivity

theorem faithful_id (n : Nat) : Faithful (fun x => x) n :=
  ⟨fun _ _ _ => rfl, fun _ _ h => h, fun _ x y hx _ h => by
    have := mul_nonneg (earErr_nonneg n) hx
    linarith⟩

theorem Faithful.keys {fl : ℚ → ℚ} {n : Nat} (hf : Faithful fl n) (hn : 0 < n) : Keys (earErr n) fl := ⟨hf.mono, hf.near hn⟩

/-! ### Size of the integers -/

/-- Differences to an image point, relative to the size of the image. -/
theorem Ok.diff {w h : Nat} (k : SizeOk w h) {a p : Pt} (ha : Ok w h a) (hp : InImg w h p) :
    |2 * (a.x - p.x)| ≤ 5 * (side w h : Int) + 1 ∧ |2 * (a.y - p.y)| ≤ 5 * (side w h : Int) + 1 := by
  have hs := side_bounds k
  have := k.w1; have := k.h1
  obtain ⟨p1, p2, p3, p4⟩ := hp
  rcases ha with ⟨a1, a2, a3, a4⟩ | ha
  · exact ⟨abs_le.mpr ⟨by omega, by omega⟩, abs_le.mpr ⟨by omega, by omega⟩⟩
  · rcases super_verts k ha with ⟨e1, e2⟩ | ⟨e1, e2⟩ | ⟨e1, e2⟩ <;> rw [e1, e2] <;>
      exact ⟨abs_le.mpr ⟨by omega, by omega⟩, abs_le.mpr ⟨by omega, by omega⟩⟩

theorem Ok.diff2 {w h : Nat} (k : SizeOk w h) {a c : Pt} (ha : Ok w h a) (hc : Ok w h c) :
    |a.x - c.x| ≤ 4 * (side w h : Int) ∧ |a.y - c.y| ≤ 3 * (side w h : Int) := by
  have hs := side_bounds k
  have := k.w1; have := k.h1
  have box : ∀ q, Ok w h q → ((w + 1) / 2 : Nat) - 2 * (side w h : Int) ≤ q.x ∧
      q.x ≤ ((w + 1) / 2 : Nat) + 2 * (side w h : Int) ∧ ((h + 1) / 2 : Nat) - (side w h : Int) ≤ q.y ∧
      q.y ≤ ((h + 1) / 2 : Nat) + 2 * (side w h : Int) := by
    intro q hq
    rcases hq with ⟨a1, a2, a3, a4⟩ | hq
    · omega
    · rcases super_verts k hq with ⟨e1, e2⟩ | ⟨e1, e2⟩ | ⟨e1, e2⟩ <;> rw [e1, e2] <;> omega
  have b1 := box a ha
  have b2 := box c hc
  exact ⟨abs_le.mpr ⟨by omega, by omega⟩, abs_le.mpr ⟨by omega, by omega⟩⟩

/-- Every corner is in the bounding triangle. -/
theorem Ok.weights {w h : Nat} (k : SizeOk w h) {q : Pt} (hq : Ok w h q) :
    0 ≤ q.y - ((h + 1) / 2 : Nat) + (side w h : Int) ∧
      3 * (q.x - ((w + 1) / 2 : Nat)) + 2 * (q.y - ((h + 1) / 2 : Nat)) ≤ 4 * (side w h : Int) ∧
      -(3 * (q.x - ((w + 1) / 2 : Nat))) + 2 * (q.y - ((h + 1) / 2 : Nat)) ≤ 4 * (side w h : Int) := by
  have hs := side_bounds k
  have := k.w1; have := k.h1
  rcases hq with ⟨a1, a2, a3, a4⟩ | hq
  · omega
  · rcases super_verts k hq with ⟨e1, e2⟩ | ⟨e1, e2⟩ | ⟨e1, e2⟩ <;> rw [e1, e2] <;> omega

/-- Three rows of nonnegative numbers with the sum `s` have a determinant of at most `s^3`. -/
theorem det_le {a1 a2 a3 b1 b2 b3 c1 c2 c3 s : Int} (ha1 : 0 ≤ a1) (ha2 : 0 ≤ a2) (ha3 : 0 ≤ a3) (hb1 : 0 ≤ b1)
    (hb2 : 0 ≤ b2) (hb3 : 0 ≤ b3) (hc1 : 0 ≤ c1) (hc2 : 0 ≤ c2) (hc3 : 0 ≤ c3) (ha : a1 + a2 + a3 = s)
    (hb : b1 + b2 + b3 = s) (hc : c1 + c2 + c3 = s) :
    |a1 * (b2 * c3 - b3 * c2) - a2 * (b1 * c3 - b3 * c1) + a3 * (b1 * c2 - b2 * c1)| ≤ s * s * s := by
  have e : s * s * s = (a1 + a2 + a3) * (b1 + b2 + b3) * (c1 + c2 + c3) := by rw [ha, hb, hc]
  have n : ∀ {x y z : Int}, 0 ≤ x → 0 ≤ y → 0 ≤ z → 0 ≤ x * y * z := fun h1 h2 h3 => mul_nonneg (mul_nonneg h1 h2) h3
  have p111 := n ha1 hb1 hc1; have p112 := n ha1 hb1 hc2; have p113 := n ha1 hb1 hc3
  have p121 := n ha1 hb2 hc1; have p122 := n ha1 hb2 hc2; have p123 := n ha1 hb2 hc3
  have p131 := n ha1 hb3 hc1; have p132 := n ha1 hb3 hc2; have p133 := n ha1 hb3 hc3
  have p211 := n ha2 hb1 hc1; have p212 := n ha2 hb1 hc2; have p213 := n ha2 hb1 hc3
  have p221 := n ha2 hb2 hc1; have p222 := n ha2 hb2 hc2; have p223 := n ha2 hb2 hc3
  have p231 := n ha2 hb3 hc1; have p232 := n ha2 hb3 hc2; have p233 := n ha2 hb3 hc3
  have p311 := n ha3 hb1 hc1; have p312 := n ha3 hb1 hc2; have p313 := n ha3 hb1 hc3
  have p321 := n ha3 hb2 hc1; have p322 := n ha3 hb2 hc2; have p323 := n ha3 hb2 hc3
  have p331 := n ha3 hb3 hc1; have p332 := n ha3 hb3 hc2; have p333 := n ha3 hb3 hc3
  rw [abs_le]
  constructor <;> linarith

/-- Twice the area of a triangle inside the bounding triangle. -/
theorem tri_area {n X Y ax ay bx bY cx cy : Int} (hn : 0 < n)
    (ha : 0 ≤ ay - Y + n ∧ 3 * (ax - X) + 2 * (ay - Y) ≤ 4 * n ∧ -(3 * (ax - X)) + 2 * (ay - Y) ≤ 4 * n)
    (hb : 0 ≤ bY - Y + n ∧ 3 * (bx - X) + 2 * (bY - Y) ≤ 4 * n ∧ -(3 * (bx - X)) + 2 * (bY - Y) ≤ 4 * n)
    (hc : 0 ≤ cy - Y + n ∧ 3 * (cx - X) + 2 * (cy - Y) ≤ 4 * n ∧ -(3 * (cx - X)) + 2 * (cy - Y) ≤ 4 * n) :
    |(ax - cx) * (bY - cy) - (bx - cx) * (ay - cy)| ≤ 12 * n ^ 2 := by
  have d := det_le (a1 := 4 * (ay - Y + n)) (a2 := 4 * n - (3 * (ax - X) + 2 * (ay - Y)))
    (a3 := 4 * n - (-(3 * (ax - X)) + 2 * (ay - Y))) (b1 := 4 * (bY - Y + n)) (b2 := 4 * n - (3 * (bx - X) + 2 * (bY - Y)))
    (b3 := 4 * n - (-(3 * (bx - X)) + 2 * (bY - Y))) (c1 := 4 * (cy - Y + n)) (c2 := 4 * n - (3 * (cx - X) + 2 * (cy - Y)))
    (c3 := 4 * n - (-(3 * (cx - X)) + 2 * (cy - Y))) (s := 12 * n) (by omega) (by omega) (by omega) (by omega)
    (by omega) (by omega) (by omega) (by omega) (by omega) (by ring) (by ring) (by ring)
  have e : 4 * (ay - Y + n) * ((4 * n - (3 * (bx - X) + 2 * (bY - Y))) * (4 * n - (-(3 * (cx - X)) + 2 * (cy - Y))) -
        (4 * n - (-(3 * (bx - X)) + 2 * (bY - Y))) * (4 * n - (3 * (cx - X) + 2 * (cy - Y)))) -
      (4 * n - (3 * (ax - X) + 2 * (ay - Y))) * (4 * (bY - Y + n) * (4 * n - (-(3 * (cx - X)) + 2 * (cy - Y))) -
        (4 * n - (-(3 * (bx - X)) + 2 * (bY - Y))) * (4 * (cy - Y + n))) +
      (4 * n - (-(3 * (ax - X)) + 2 * (ay - Y))) * (4 * (bY - Y + n) * (4 * n - (3 * (cx - X) + 2 * (cy - Y))) -
        (4 * n - (3 * (bx - X) + 2 * (bY - Y))) * (4 * (cy - Y + n))) =
      144 * n * ((ax - cx) * (bY - cy) - (bx - cx) * (ay - cy)) := by ring
  rw [e, abs_mul, abs_of_pos (by positivity)] at d
  refine le_of_mul_le_mul_left (d.trans (le_of_eq ?_)) (show 0 < 144 * n by positivity)
  ring

/-- The distance of a corner to an image point. -/
theorem Ok.dist_img {w h : Nat} (k : SizeOk w h) {v u : Pt} (hv : Ok w h v) (hu : InImg w h u) :
    (v.x - u.x) ^ 2 + (v.y - u.y) ^ 2 ≤ 11 * (side w h : Int) ^ 2 := by
  have hs := side_bounds k
  have := k.w1; have := k.h1
  have sq : ∀ {x m : Int}, |x| ≤ m → x ^ 2 ≤ m ^ 2 := fun hx =>
    sq_le_sq' (by have := (abs_le.mp hx).1; omega) (abs_le.mp hx).2
  set n : Int := (side w h : Int) with hn
  have n2 : 2 ≤ n := by omega
  obtain ⟨a1, a2, a3, a4⟩ := hu
  rcases hv with ⟨b1, b2, b3, b4⟩ | hv
  · have h1 := sq (show |v.x - u.x| ≤ n from abs_le.mpr ⟨by omega, by omega⟩)
    have h2 := sq (show |v.y - u.y| ≤ n from abs_le.mpr ⟨by omega, by omega⟩)
    nlinarith
  · rcases super_verts k hv with ⟨e1, e2⟩ | ⟨e1, e2⟩ | ⟨e1, e2⟩
    · have h1 := sq (show |2 * (v.x - u.x)| ≤ 5 * n + 1 from abs_le.mpr ⟨by omega, by omega⟩)
      have h2 := sq (show |2 * (v.y - u.y)| ≤ 3 * n + 1 from abs_le.mpr ⟨by omega, by omega⟩)
      nlinarith
    · have h1 := sq (show |2 * (v.x - u.x)| ≤ n + 1 from abs_le.mpr ⟨by omega, by omega⟩)
      have h2 := sq (show |2 * (v.y - u.y)| ≤ 5 * n + 1 from abs_le.mpr ⟨by omega, by omega⟩)
      nlinarith
    · have h1 := sq (show |2 * (v.x - u.x)| ≤ 5 * n + 1 from abs_le.mpr ⟨by omega, by omega⟩)
      have h2 := sq (show |2 * (v.y - u.y)| ≤ 3 * n + 1 from abs_le.mpr ⟨by omega, by omega⟩)
      nlinarith

/-- Distances in the bounding triangle. -/
theorem Ok.dist {w h : Nat} (k : SizeOk w h) {a b : Pt} (ha : Ok w h a) (hb : Ok w h b) :
    (a.x - b.x) ^ 2 + (a.y - b.y) ^ 2 ≤ 16 * (side w h : Int) ^ 2 := by
  have n0 := sq_nonneg (side w h : Int)
  rcases hb with hb | hb
  · have := ha.dist_img k hb
    linarith
  rcases ha with ha | ha
  · have := Ok.dist_img k (Or.inr hb) ha
    nlinarith
  · rcases super_verts k ha with ⟨e1, e2⟩ | ⟨e1, e2⟩ | ⟨e1, e2⟩ <;>
    rcases super_verts k hb with ⟨f1, f2⟩ | ⟨f1, f2⟩ | ⟨f1, f2⟩ <;> rw [e1, e2, f1, f2] <;> nlinarith

theorem ori_bound {w h : Nat} (k : SizeOk w h) {a b c : Pt} (ha : Ok w h a) (hb : Ok w h b)
    (hc : Ok w h c) : |orientation a b c| ≤ 12 * (side w h : Int) ^ 2 := by
  have e := orientation_eq (ha.near k) (hb.near k) (hc.near k)
  have e2 : orientation a b c = (a.x - c.x) * (b.y - c.y) - (b.x - c.x) * (a.y - c.y) := by
    have : (orientation a b c : ℚ) = (((a.x - c.x) * (b.y - c.y) - (b.x - c.x) * (a.y - c.y) : Int) : ℚ) := by
      rw [e]; unfold ori toP; push_cast; ring
    exact_mod_cast this
  rw [e2]
  exact tri_area (by have := side_bounds k; omega) (ha.weights k) (hb.weights k) (hc.weights k)

/-- Positions of corners. -/
def OnGrid (w h : Nat) (x : P2) : Prop := ∃ q : Pt, Ok w h q ∧ x = toP q

/-- Positions of image points. -/
def OnImg (w h : Nat) (x : P2) : Prop := ∃ q : Pt, InImg w h q ∧ x = toP q

theorem OnImg.grid {w h : Nat} {x : P2} (hx : OnImg w h x) : OnGrid w h x := by
  obtain ⟨q, hq, rfl⟩ := hx
  exact ⟨q, Or.inl hq, rfl⟩

section
variable {w h : Nat} (k : SizeOk w h)
include k

theorem grid_ori {u v x : P2} (hu : OnGrid w h u) (hv : OnGrid w h v) (hx : OnGrid w h x) :
    |ori u v x| ≤ 12 * (side w h : ℚ) ^ 2 := by
  obtain ⟨u, hu, rfl⟩ := hu
  obtain ⟨v, hv, rfl⟩ := hv
  obtain ⟨x, hx, rfl⟩ := hx
  rw [← orientation_eq (hu.near k) (hv.near k) (hx.near k)]
  exact_mod_cast ori_bound k hu hv hx

theorem grid_far {a b : P2} (ha : OnGrid w h a) (hb : OnGrid w h b) : nsq a b ≤ 16 * (side w h : ℚ) ^ 2 := by
  obtain ⟨a, ha, rfl⟩ := ha
  obtain ⟨b, hb, rfl⟩ := hb
  have d := ha.dist k hb
  change ((a.x : ℚ) - b.x) ^ 2 + ((a.y : ℚ) - b.y) ^ 2 ≤ _
  exact_mod_cast d

theorem grid_near {a p : P2} (ha : OnGrid w h a) (hp : OnImg w h p) : nsq a p ≤ 11 * (side w h : ℚ) ^ 2 := by
  obtain ⟨a, ha, rfl⟩ := ha
  obtain ⟨p, hp, rfl⟩ := hp
  have d := ha.dist_img k hp
  change ((a.x : ℚ) - p.x) ^ 2 + ((a.y : ℚ) - p.y) ^ 2 ≤ _
  exact_mod_cast d

/-- The distance of a corner to an image point, with the rounding of the middle of the image. -/
theorem grid_near' {a p : P2} (ha : OnGrid w h a) (hp : OnImg w h p) :
    nsq a p ≤ 17 / 2 * (side w h : ℚ) ^ 2 + 5 * side w h := by
  obtain ⟨a, ha, rfl⟩ := ha
  obtain ⟨p, hp, rfl⟩ := hp
  have hs := side_bounds k
  have := k.w1; have := k.h1
  have sq : ∀ {x m : Int}, |x| ≤ m → x ^ 2 ≤ m ^ 2 := fun hx =>
    sq_le_sq' (by have := (abs_le.mp hx).1; omega) (abs_le.mp hx).2
  have key : 2 * ((a.x - p.x) ^ 2 + (a.y - p.y) ^ 2) ≤ 17 * (side w h : Int) ^ 2 + 10 * side w h := by
    set n : Int := (side w h : Int) with hn
    have n2 : 2 ≤ n := by omega
    obtain ⟨a1, a2, a3, a4⟩ := hp
    rcases ha with ⟨b1, b2, b3, b4⟩ | hv
    · have h1 := sq (show |a.x - p.x| ≤ n from abs_le.mpr ⟨by omega, by omega⟩)
      have h2 := sq (show |a.y - p.y| ≤ n from abs_le.mpr ⟨by omega, by omega⟩)
      nlinarith
    · rcases super_verts k hv with ⟨e1, e2⟩ | ⟨e1, e2⟩ | ⟨e1, e2⟩
      · have h1 := sq (show |2 * (a.x - p.x)| ≤ 5 * n + 1 from abs_le.mpr ⟨by omega, by omega⟩)
        have h2 := sq (show |2 * (a.y - p.y)| ≤ 3 * n + 1 from abs_le.mpr ⟨by omega, by omega⟩)
        nlinarith
      · have h1 := sq (show |2 * (a.x - p.x)| ≤ n + 1 from abs_le.mpr ⟨by omega, by omega⟩)
        have h2 := sq (show |2 * (a.y - p.y)| ≤ 5 * n + 1 from abs_le.mpr ⟨by omega, by omega⟩)
        nlinarith
      · have h1 := sq (show |2 * (a.x - p.x)| ≤ 5 * n + 1 from abs_le.mpr ⟨by omega, by omega⟩)
        have h2 := sq (show |2 * (a.y - p.y)| ≤ 3 * n + 1 from abs_le.mpr ⟨by omega, by omega⟩)
        nlinarith
  have key' : (2 : ℚ) * (((a.x : ℚ) - p.x) ^ 2 + ((a.y : ℚ) - p.y) ^ 2) ≤ 17 * (side w h : ℚ) ^ 2 + 10 * side w h := by
    exact_mod_cast key
  change ((a.x : ℚ) - p.x) ^ 2 + ((a.y : ℚ) - p.y) ^ 2 ≤ _
  linarith

/-- Differences of two corners. -/
theorem Ok.slopes {b c : Pt} (hb : Ok w h b) (hc : Ok w h c) :
    5 * |b.y - c.y| + 3 * |b.x - c.x| ≤ 21 * (side w h : Int) ∧ |b.y - c.y| + 5 * |b.x - c.x| ≤ 20 * (side w h : Int) ∧
      |b.y - c.y| + |b.x - c.x| ≤ 5 * (side w h : Int) := by
  have hs := side_bounds k
  have := k.w1; have := k.h1
  have cov : ∀ x y n : Int, (5 * y + 3 * x ≤ 21 * n ∧ -(5 * y) + 3 * x ≤ 21 * n ∧ 5 * y - 3 * x ≤ 21 * n ∧ -(5 * y) - 3 * x ≤ 21 * n ∧
      y + 5 * x ≤ 20 * n ∧ -y + 5 * x ≤ 20 * n ∧ y - 5 * x ≤ 20 * n ∧ -y - 5 * x ≤ 20 * n ∧ y + x ≤ 5 * n ∧ -y + x ≤ 5 * n ∧
      y - x ≤ 5 * n ∧ -y - x ≤ 5 * n) → 5 * |y| + 3 * |x| ≤ 21 * n ∧ |y| + 5 * |x| ≤ 20 * n ∧ |y| + |x| ≤ 5 * n := by
    intro x y n hyp
    rcases abs_cases y with ⟨e, _⟩ | ⟨e, _⟩ <;> rcases abs_cases x with ⟨f, _⟩ | ⟨f, _⟩ <;> rw [e, f] <;> omega
  apply cov
  rcases hb with ⟨b1, b2, b3, b4⟩ | hb
  · rcases hc with ⟨c1, c2, c3, c4⟩ | hc
    · omega
    · rcases super_verts k hc with ⟨e1, e2⟩ | ⟨e1, e2⟩ | ⟨e1, e2⟩ <;> rw [e1, e2] <;> omega
  · rcases hc with ⟨c1, c2, c3, c4⟩ | hc
    · rcases super_verts k hb with ⟨e1, e2⟩ | ⟨e1, e2⟩ | ⟨e1, e2⟩ <;> rw [e1, e2] <;> omega
    · rcases super_verts k hb with ⟨e1, e2⟩ | ⟨e1, e2⟩ | ⟨e1, e2⟩ <;>
      rcases super_verts k hc with ⟨f1, f2⟩ | ⟨f1, f2⟩ | ⟨f1, f2⟩ <;> rw [e1, e2, f1, f2] <;> omega

/-- Two triangles on either side of the line from an image point to a corner. -/
theorem grid_kite {a b c p : P2} (ha : OnGrid w h a) (hb : OnGrid w h b) (hc : OnGrid w h c) (hp : OnImg w h p) :
    ori p c a + ori p a b ≤ 12 * (side w h : ℚ) ^ 2 := by
  obtain ⟨a, ha, rfl⟩ := ha
  obtain ⟨b, hb, rfl⟩ := hb
  obtain ⟨c, hc, rfl⟩ := hc
  obtain ⟨p, hp, rfl⟩ := hp
  have hs := side_bounds k
  have := k.w1; have := k.h1
  obtain ⟨s1, s2, s3⟩ := hb.slopes k hc
  have e : ori (toP p) (toP c) (toP a) + ori (toP p) (toP a) (toP b) =
      (((a.x - p.x) * (b.y - c.y) - (a.y - p.y) * (b.x - c.x) : Int) : ℚ) := by
    unfold ori toP; push_cast; ring
  rw [e]
  suffices (a.x - p.x) * (b.y - c.y) - (a.y - p.y) * (b.x - c.x) ≤ 12 * (side w h : Int) ^ 2 by exact_mod_cast this
  set n : Int := (side w h : Int) with hn
  have n2 : 2 ≤ n := by omega
  set X := |b.x - c.x| with hX
  set Y := |b.y - c.y| with hY
  have X0 : 0 ≤ X := abs_nonneg _
  have Y0 : 0 ≤ Y := abs_nonneg _
  have red : ∀ P Q : Int, |2 * (a.x - p.x)| ≤ P → |2 * (a.y - p.y)| ≤ Q → P * Y + Q * X ≤ 24 * n ^ 2 →
      (a.x - p.x) * (b.y - c.y) - (a.y - p.y) * (b.x - c.x) ≤ 12 * n ^ 2 := by
    intro P Q hP hQ hle
    have m1 : |2 * (a.x - p.x) * (b.y - c.y)| ≤ P * Y := by
      rw [abs_mul]; exact mul_le_mul_of_nonneg_right hP Y0
    have m2 : |2 * (a.y - p.y) * (b.x - c.x)| ≤ Q * X := by
      rw [abs_mul]; exact mul_le_mul_of_nonneg_right hQ X0
    have l1 := (abs_le.mp m1).2
    have l2 := (abs_le.mp m2).1
    linarith
  have t1 := mul_le_mul_of_nonneg_left s1 (show 0 ≤ n by omega)
  have t2 := mul_le_mul_of_nonneg_left s2 (show 0 ≤ n by omega)
  have t3 := mul_le_mul_of_nonneg_left s3 (show 0 ≤ n by omega)
  have t4 := mul_le_mul_of_nonneg_left n2 (show 0 ≤ n by omega)
  obtain ⟨a1, a2, a3, a4⟩ := hp
  rcases ha with ⟨b1, b2, b3, b4⟩ | hv
  · refine red (2 * n) (2 * n) (abs_le.mpr ⟨by omega, by omega⟩) (abs_le.mpr ⟨by omega, by omega⟩) ?_
    linarith
  · rcases super_verts k hv with ⟨e1, e2⟩ | ⟨e1, e2⟩ | ⟨e1, e2⟩
    · refine red (5 * n + 1) (3 * n + 1) (abs_le.mpr ⟨by omega, by omega⟩) (abs_le.mpr ⟨by omega, by omega⟩) ?_
      linarith
    · refine red (n + 1) (5 * n + 1) (abs_le.mpr ⟨by omega, by omega⟩) (abs_le.mpr ⟨by omega, by omega⟩) ?_
      linarith
    · refine red (5 * n + 1) (3 * n + 1) (abs_le.mpr ⟨by omega, by omega⟩) (abs_le.mpr ⟨by omega, by omega⟩) ?_
      linarith

theorem grid_inc {a b c p : P2} (hp : OnImg w h p) (ha : OnGrid w h a) (hb : OnGrid w h b) (hc : OnGrid w h c)
    (ho : 0 < ori a b c) : inc a b c p ≤ 102 * (side w h : ℚ) ^ 4 + 60 * (side w h : ℚ) ^ 3 := by
  rw [inc_eq_sum]
  have n0 : 0 ≤ (side w h : ℚ) ^ 2 := by positivity
  have n1 : (0 : ℚ) ≤ side w h := by positivity
  have e4 : 102 * (side w h : ℚ) ^ 4 + 60 * (side w h : ℚ) ^ 3 =
      (17 / 2 * (side w h : ℚ) ^ 2 + 5 * side w h) * (12 * (side w h : ℚ) ^ 2) := by ring
  rw [e4]
  have hsum := ori_sum a b c p
  rw [ori_rot p b c, ori_rot p c a, ori_rot p a b] at hsum
  have O := le_of_abs_le (grid_ori k ha hb hc)
  have x1 := le_of_abs_le (grid_ori k hp.grid hb hc)
  have y1 := le_of_abs_le (grid_ori k hp.grid hc ha)
  have z1 := le_of_abs_le (grid_ori k hp.grid ha hb)
  have kx := grid_kite k ha hb hc hp
  have ky := grid_kite k hb hc ha hp
  have kz := grid_kite k hc ha hb hp
  have dx := grid_near' k ha hp
  have dy := grid_near' k hb hp
  have dz := grid_near' k hc hp
  set m := (side w h : ℚ) ^ 2 with hm
  set d := 17 / 2 * m + 5 * (side w h : ℚ) with hd
  have d0 : 0 ≤ d := by linarith
  have part : ∀ N x : ℚ, 0 ≤ N → N ≤ d → N * x ≤ d * max x 0 := fun N x h1 h2 =>
    (mul_le_mul_of_nonneg_left (le_max_left x 0) h1).trans (mul_le_mul_of_nonneg_right h2 (le_max_right x 0))
  have px := part _ (ori p b c) (nsq_nonneg a p) dx
  have py := part _ (ori p c a) (nsq_nonneg b p) dy
  have pz := part _ (ori p a b) (nsq_nonneg c p) dz
  have tot : max (ori p b c) 0 + max (ori p c a) 0 + max (ori p a b) 0 ≤ 12 * m := by
    rcases max_cases (ori p b c) 0 with ⟨g1, _⟩ | ⟨g1, _⟩ <;> rcases max_cases (ori p c a) 0 with ⟨g2, _⟩ | ⟨g2, _⟩ <;>
      rcases max_cases (ori p a b) 0 with ⟨g3, _⟩ | ⟨g3, _⟩ <;> rw [g1, g2, g3] <;> linarith
  have := mul_le_mul_of_nonneg_left tot d0
  linarith

/-- Two corners of the bounding triangle differ by multiples of the side. -/
theorem super_diff {u v : Pt} (hu : (newSuperTriangle w h).hasVertex u = true)
    (hv : (newSuperTriangle w h).hasVertex v = true) :
    ∃ e f : Int, u.x = v.x + side w h * e ∧ u.y = v.y + side w h * f := by
  have m : ∀ e f : Int, u.x = v.x + side w h * e ∧ u.y = v.y + side w h * f →
      ∃ e f : Int, u.x = v.x + side w h * e ∧ u.y = v.y + side w h * f := fun e f h => ⟨e, f, h⟩
  rcases super_verts k hu with ⟨e1, e2⟩ | ⟨e1, e2⟩ | ⟨e1, e2⟩ <;>
  rcases super_verts k hv with ⟨f1, f2⟩ | ⟨f1, f2⟩ | ⟨f1, f2⟩ <;> rw [e1, e2, f1, f2]
  · exact ⟨0, 0, by ring, by ring⟩
  · exact ⟨-2, -3, by ring, by ring⟩
  · exact ⟨-4, 0, by ring, by ring⟩
  · exact ⟨2, 3, by ring, by ring⟩
  · exact ⟨0, 0, by ring, by ring⟩
  · exact ⟨-2, 3, by ring, by ring⟩
  · exact ⟨4, 0, by ring, by ring⟩
  · exact ⟨2, -3, by ring, by ring⟩
  · exact ⟨0, 0, by ring, by ring⟩

/-- With two corners of the bounding triangle the in-circle determinant is a multiple of the side. -/
theorem inc_two {u v x y : Pt} (hu : (newSuperTriangle w h).hasVertex u = true)
    (hv : (newSuperTriangle w h).hasVertex v = true) :
    ∃ z : Int, inc (toP u) (toP v) (toP x) (toP y) = (side w h : ℚ) * z := by
  obtain ⟨e, f, h1, h2⟩ := super_diff k hu hv
  refine ⟨(2 * ((v.x - y.x) * e + (v.y - y.y) * f) + side w h * (e ^ 2 + f ^ 2)) *
      ((v.x - y.x) * (x.y - y.y) - (x.x - y.x) * (v.y - y.y)) +
    ((v.x - y.x) ^ 2 + (v.y - y.y) ^ 2) * ((x.x - y.x) * f - e * (x.y - y.y)) +
    ((x.x - y.x) ^ 2 + (x.y - y.y) ^ 2) * (e * (v.y - y.y) - (v.x - y.x) * f), ?_⟩
  unfold inc toP
  simp only
  rw [h1, h2]
  push_cast
  ring

omit k in
/-- An in-circle determinant that is a positive multiple of `m`. -/
theorem mult_ge {m : Nat} {r : ℚ} (hz : ∃ z : Int, r = (m : ℚ) * z) (h : 0 < r) : (m : ℚ) ≤ r := by
  obtain ⟨z, rfl⟩ := hz
  have hm : (0 : ℚ) ≤ m := by positivity
  have hz : (0 : ℚ) < z := pos_of_mul_pos_right h hm
  have hz1 : (1 : ℚ) ≤ z := by
    have : 0 < z := by exact_mod_cast hz
    exact_mod_cast (show 1 ≤ z by omega)
  have := mul_le_mul_of_nonneg_left hz1 hm
  linarith

/-- Squared distances in the image. -/
theorem img_far {b v : Pt} (hb : InImg w h b) (hv : InImg w h v) : nsq (toP b) (toP v) ≤ 2 * (side w h : ℚ) ^ 2 := by
  have hs := side_bounds k
  obtain ⟨a1, a2, a3, a4⟩ := hb
  obtain ⟨b1, b2, b3, b4⟩ := hv
  have sq : ∀ {x m : Int}, |x| ≤ m → x ^ 2 ≤ m ^ 2 := fun hx =>
    sq_le_sq' (by have := (abs_le.mp hx).1; omega) (abs_le.mp hx).2
  have h1 := sq (show |b.x - v.x| ≤ (side w h : Int) from abs_le.mpr ⟨by omega, by omega⟩)
  have h2 := sq (show |b.y - v.y| ≤ (side w h : Int) from abs_le.mpr ⟨by omega, by omega⟩)
  have : (b.x - v.x) ^ 2 + (b.y - v.y) ^ 2 ≤ 2 * (side w h : Int) ^ 2 := by linarith
  change ((b.x : ℚ) - v.x) ^ 2 + ((b.y : ℚ) - v.y) ^ 2 ≤ _
  exact_mod_cast this

/-- Triangles with two corners in the image. -/
theorem img_ori {a b c : Pt} (ha : InImg w h a) (hb : Ok w h b) (hc : InImg w h c) :
    2 * ori (toP a) (toP b) (toP c) ≤ 9 * (side w h : ℚ) ^ 2 := by
  have hs := side_bounds k
  have := k.w1; have := k.h1
  obtain ⟨a1, a2, a3, a4⟩ := ha
  have hc' := hc
  obtain ⟨c1, c2, c3, c4⟩ := hc'
  have e : 2 * ori (toP a) (toP b) (toP c) =
      ((((a.x - c.x) * (2 * (b.y - c.y)) - (2 * (b.x - c.x)) * (a.y - c.y)) : Int) : ℚ) := by
    unfold ori toP; push_cast; ring
  rw [e]
  suffices (a.x - c.x) * (2 * (b.y - c.y)) - (2 * (b.x - c.x)) * (a.y - c.y) ≤ 9 * (side w h : Int) ^ 2 by exact_mod_cast this
  set n : Int := (side w h : Int) with hn
  have n2 : 2 ≤ n := by omega
  have x1 : |a.x - c.x| ≤ n := abs_le.mpr ⟨by omega, by omega⟩
  have y1 : |a.y - c.y| ≤ n := abs_le.mpr ⟨by omega, by omega⟩
  have t4 := mul_le_mul_of_nonneg_left n2 (show 0 ≤ n by omega)
  have red : ∀ P Q : Int, |2 * (b.x - c.x)| ≤ P → |2 * (b.y - c.y)| ≤ Q → P + Q ≤ 8 * n + 2 →
      (a.x - c.x) * (2 * (b.y - c.y)) - (2 * (b.x - c.x)) * (a.y - c.y) ≤ 9 * n ^ 2 := by
    intro P Q hP hQ hle
    have m1 : |(a.x - c.x) * (2 * (b.y - c.y))| ≤ n * Q := by
      rw [abs_mul]; exact mul_le_mul x1 hQ (abs_nonneg _) (by omega)
    have m2 : |2 * (b.x - c.x) * (a.y - c.y)| ≤ P * n := by
      rw [abs_mul]; exact mul_le_mul hP y1 (abs_nonneg _) ((abs_nonneg _).trans hP)
    have l1 := (abs_le.mp m1).2
    have l2 := (abs_le.mp m2).1
    have := mul_le_mul_of_nonneg_left hle (show 0 ≤ n by omega)
    linarith
  rcases hb with ⟨b1, b2, b3, b4⟩ | hv
  · exact red (2 * n) (2 * n) (abs_le.mpr ⟨by omega, by omega⟩) (abs_le.mpr ⟨by omega, by omega⟩) (by omega)
  · rcases super_verts k hv with ⟨e1, e2⟩ | ⟨e1, e2⟩ | ⟨e1, e2⟩
    · exact red (5 * n + 1) (3 * n + 1) (abs_le.mpr ⟨by omega, by omega⟩) (abs_le.mpr ⟨by omega, by omega⟩) (by omega)
    · exact red (n + 1) (5 * n + 1) (abs_le.mpr ⟨by omega, by omega⟩) (abs_le.mpr ⟨by omega, by omega⟩) (by omega)
    · exact red (5 * n + 1) (3 * n + 1) (abs_le.mpr ⟨by omega, by omega⟩) (abs_le.mpr ⟨by omega, by omega⟩) (by omega)

/-- Triangles with all corners in the image. -/
theorem img_ori3 {a b c : Pt} (ha : InImg w h a) (hb : InImg w h b) (hc : InImg w h c) :
    |ori (toP a) (toP b) (toP c)| ≤ (side w h : ℚ) ^ 2 := by
  have hs := side_bounds k
  obtain ⟨a1, a2, a3, a4⟩ := ha
  obtain ⟨b1, b2, b3, b4⟩ := hb
  obtain ⟨c1, c2, c3, c4⟩ := hc
  have box := area_box (x1 := 0) (x2 := side w h) (y1 := 0) (y2 := side w h) (ax := a.x) (ay := a.y) (bx := b.x)
    (b_y := b.y) (cx := c.x) (cy := c.y) (by omega) (by omega) (by omega) (by omega) (by omega) (by omega) (by omega)
    (by omega) (by omega) (by omega) (by omega) (by omega)
  have e : ori (toP a) (toP b) (toP c) = (((b.x - a.x) * (c.y - a.y) - (b.y - a.y) * (c.x - a.x) : Int) : ℚ) := by
    unfold ori toP; push_cast; ring
  rw [e]
  have e2 : ((side w h : Int) - 0) * ((side w h : Int) - 0) = (side w h : Int) ^ 2 := by ring
  rw [e2] at box
  exact_mod_cast box

omit k in
/-- The difference of two products. -/
theorem pencil {L1 L2 Q1 Q2 A B δ : ℚ} (a0 : 0 ≤ L1) (a1 : L1 ≤ A) (b0 : 0 ≤ L2) (b1 : L2 ≤ A) (hB : 0 ≤ B)
    (hδ : 0 ≤ δ) (c0 : -δ ≤ Q1) (c1 : Q1 ≤ B) (d0 : -δ ≤ Q2) (d1 : Q2 ≤ B) :
    |L1 * Q2 - L2 * Q1| ≤ A * (B + δ) := by
  have t1 := mul_le_mul_of_nonneg_left d1 a0
  have t2 := mul_le_mul_of_nonneg_left d0 a0
  have t3 := mul_le_mul_of_nonneg_left c1 b0
  have t4 := mul_le_mul_of_nonneg_left c0 b0
  have u1 := mul_le_mul_of_nonneg_right a1 hB
  have u2 := mul_le_mul_of_nonneg_right a1 hδ
  have u3 := mul_le_mul_of_nonneg_right b1 hB
  have u4 := mul_le_mul_of_nonneg_right b1 hδ
  rw [abs_le]
  constructor <;> linarith

omit k in
/-- The lower edge of the bounding triangle. -/
theorem pencil_low {n x y x' y' : ℚ} (hn : 2 ≤ n) (hx : |2 * x| ≤ n + 1) (hy : |2 * y| ≤ n + 1) (hx' : |2 * x'| ≤ n + 1)
    (hy' : |2 * y'| ≤ n + 1) :
    |4 * n * (n + y) * (5 * n ^ 2 - x' ^ 2 - y' ^ 2) - 4 * n * (n + y') * (5 * n ^ 2 - x ^ 2 - y ^ 2)| ≤
      30 * n ^ 4 + 60 * n ^ 3 := by
  have sq : ∀ {x : ℚ}, |2 * x| ≤ n + 1 → 4 * x ^ 2 ≤ (n + 1) ^ 2 := fun {x} h => by
    have := sq_le_sq' (abs_le.mp h).1 (abs_le.mp h).2
    linarith
  have lin : ∀ {y : ℚ}, |2 * y| ≤ n + 1 → 0 ≤ 4 * n * (n + y) ∧ 4 * n * (n + y) ≤ 6 * n ^ 2 + 2 * n := by
    intro y h
    have := abs_le.mp h
    constructor
    · exact mul_nonneg (by linarith) (by linarith)
    · have := mul_le_mul_of_nonneg_left this.2 (show 0 ≤ 2 * n by linarith)
      linarith
  have q : ∀ {x y : ℚ}, |2 * x| ≤ n + 1 → |2 * y| ≤ n + 1 →
      -0 ≤ 5 * n ^ 2 - x ^ 2 - y ^ 2 ∧ 5 * n ^ 2 - x ^ 2 - y ^ 2 ≤ 5 * n ^ 2 := by
    intro x y h1 h2
    have s1 := sq h1
    have s2 := sq h2
    have := mul_le_mul_of_nonneg_left hn (show 0 ≤ n by linarith)
    constructor
    · linarith
    · linarith [sq_nonneg x, sq_nonneg y]
  have n3 : 0 ≤ n ^ 3 := pow_nonneg (by linarith) 3
  refine (pencil (lin hy).1 (lin hy).2 (lin hy').1 (lin hy').2 (by positivity) le_rfl (q hx hy).1 (q hx hy).2
    (q hx' hy').1 (q hx' hy').2).trans ?_
  linarith

omit k in
/-- The upper edges of the bounding triangle. -/
theorem pencil_up {n x y x' y' : ℚ} (hn : 2 ≤ n) (hx : |2 * x| ≤ n + 1) (hy : |2 * y| ≤ n + 1) (hx' : |2 * x'| ≤ n + 1)
    (hy' : |2 * y'| ≤ n + 1) :
    |n * (4 * n + 3 * x - 2 * y) * (2 * n ^ 2 - x' ^ 2 - 2 * n * x' - y' ^ 2 + n * y') -
      n * (4 * n + 3 * x' - 2 * y') * (2 * n ^ 2 - x ^ 2 - 2 * n * x - y ^ 2 + n * y)| ≤ 30 * n ^ 4 + 60 * n ^ 3 := by
  have sq : ∀ {x : ℚ}, |2 * x| ≤ n + 1 → 4 * x ^ 2 ≤ (n + 1) ^ 2 := fun {x} h => by
    have := sq_le_sq' (abs_le.mp h).1 (abs_le.mp h).2
    linarith
  have n0 : 0 ≤ n := by linarith
  have lin : ∀ {x y : ℚ}, |2 * x| ≤ n + 1 → |2 * y| ≤ n + 1 → 0 ≤ n * (4 * n + 3 * x - 2 * y) ∧
      n * (4 * n + 3 * x - 2 * y) ≤ 13 / 2 * n ^ 2 + 5 / 2 * n := by
    intro x y h1 h2
    have a1 := abs_le.mp h1
    have a2 := abs_le.mp h2
    constructor
    · exact mul_nonneg n0 (by linarith)
    · have := mul_le_mul_of_nonneg_left (show 4 * n + 3 * x - 2 * y ≤ 13 / 2 * n + 5 / 2 by linarith) n0
      linarith
  have q : ∀ {x y : ℚ}, |2 * x| ≤ n + 1 → |2 * y| ≤ n + 1 →
      -(5 / 2 * n + 1 / 2) ≤ 2 * n ^ 2 - x ^ 2 - 2 * n * x - y ^ 2 + n * y ∧
        2 * n ^ 2 - x ^ 2 - 2 * n * x - y ^ 2 + n * y ≤ 13 / 4 * n ^ 2 + n := by
    intro x y h1 h2
    have s1 := sq h1
    have s2 := sq h2
    have l1 := mul_le_mul_of_nonneg_left (abs_le.mp h1).1 n0
    have l2 := mul_le_mul_of_nonneg_left (abs_le.mp h1).2 n0
    have l3 := mul_le_mul_of_nonneg_left (abs_le.mp h2).1 n0
    have l4 := mul_le_mul_of_nonneg_left (abs_le.mp h2).2 n0
    constructor
    · linarith
    · linarith [sq_nonneg x, sq_nonneg (y - n / 2)]
  have n4 : 0 ≤ n ^ 4 := pow_nonneg n0 4
  have n3 : 2 * n ^ 2 ≤ n ^ 3 := by
    have := mul_le_mul_of_nonneg_left hn (sq_nonneg n)
    linarith
  have n2 : 2 * n ≤ n ^ 2 := by
    have := mul_le_mul_of_nonneg_left hn n0
    linarith
  refine (pencil (lin hx hy).1 (lin hx hy).2 (lin hx' hy').1 (lin hx' hy').2 (by positivity) (by positivity)
    (q hx hy).1 (q hx hy).2 (q hx' hy').1 (q hx' hy').2).trans ?_
  linarith

/-- The in-circle determinant with two corners of the bounding triangle. -/
theorem inc_two_le {u v m p : Pt} (hu : (newSuperTriangle w h).hasVertex u = true)
    (hv : (newSuperTriangle w h).hasVertex v = true) (hm : InImg w h m) (hp : InImg w h p) :
    |inc (toP u) (toP v) (toP m) (toP p)| ≤ 30 * (side w h : ℚ) ^ 4 + 60 * (side w h : ℚ) ^ 3 := by
  have hs := side_bounds k
  have := k.w1; have := k.h1
  have c : ∀ q : Pt, InImg w h q → |2 * ((q.x : ℚ) - ((w + 1) / 2 : Nat))| ≤ side w h + 1 ∧
      |2 * (-((q.x : ℚ) - ((w + 1) / 2 : Nat)))| ≤ side w h + 1 ∧
      |2 * ((q.y : ℚ) - ((h + 1) / 2 : Nat))| ≤ side w h + 1 := by
    intro q ⟨h1, h2, h3, h4⟩
    have i1 : |2 * (q.x - (((w + 1) / 2 : Nat) : Int))| ≤ side w h + 1 := abs_le.mpr ⟨by omega, by omega⟩
    have i2 : |2 * (q.y - (((h + 1) / 2 : Nat) : Int))| ≤ side w h + 1 := abs_le.mpr ⟨by omega, by omega⟩
    generalize (w + 1) / 2 = X at *
    generalize (h + 1) / 2 = Y at *
    have j1 : |2 * ((q.x : ℚ) - X)| ≤ side w h + 1 := by exact_mod_cast i1
    refine ⟨j1, ?_, by exact_mod_cast i2⟩
    rw [← abs_neg]
    convert j1 using 2; ring
  obtain ⟨m1, m2, m3⟩ := c m hm
  obtain ⟨p1, p2, p3⟩ := c p hp
  have n2 : (2 : ℚ) ≤ side w h := by exact_mod_cast hs.1
  have lo := pencil_low n2 m1 m3 p1 p3
  have u1 := pencil_up n2 m1 m3 p1 p3
  have u2 := pencil_up n2 m2 m3 p2 p3
  have z : (0 : ℚ) ≤ 30 * (side w h : ℚ) ^ 4 + 60 * (side w h : ℚ) ^ 3 := by positivity
  have fin : ∀ {r s : ℚ}, |s| ≤ 30 * (side w h : ℚ) ^ 4 + 60 * (side w h : ℚ) ^ 3 → (r = s ∨ r = -s) →
      |r| ≤ 30 * (side w h : ℚ) ^ 4 + 60 * (side w h : ℚ) ^ 3 := by
    rintro r s hs (rfl | rfl)
    · exact hs
    · rwa [abs_neg]
  have zer : |(0 : ℚ)| ≤ 30 * (side w h : ℚ) ^ 4 + 60 * (side w h : ℚ) ^ 3 := by rwa [abs_zero]
  unfold inc toP
  simp only
  rcases super_verts k hu with ⟨e1, e2⟩ | ⟨e1, e2⟩ | ⟨e1, e2⟩ <;>
  rcases super_verts k hv with ⟨f1, f2⟩ | ⟨f1, f2⟩ | ⟨f1, f2⟩ <;> rw [e1, e2, f1, f2] <;>
  set X := (w + 1) / 2 <;> set Y := (h + 1) / 2 <;> push_cast
  · exact fin zer (Or.inl (by ring1))
  · exact fin u1 (by first | (left; ring1) | (right; ring1))
  · exact fin lo (by first | (left; ring1) | (right; ring1))
  · exact fin u1 (by first | (left; ring1) | (right; ring1))
  · exact fin zer (Or.inl (by ring1))
  · exact fin u2 (by first | (left; ring1) | (right; ring1))
  · exact fin lo (by first | (left; ring1) | (right; ring1))
  · exact fin u2 (by first | (left; ring1) | (right; ring1))
  · exact fin zer (Or.inl (by ring1))

/-- The in-circle determinant of the bounding triangle is a multiple of 4. -/
theorem inc_three {a b c p : Pt} (ha : (newSuperTriangle w h).hasVertex a = true)
    (hb : (newSuperTriangle w h).hasVertex b = true) (hc : (newSuperTriangle w h).hasVertex c = true) :
    ∃ z : Int, inc (toP a) (toP b) (toP c) (toP p) = 4 * z := by
  have fin : ∀ r : ℚ, (r = 0 ∨ r = 4 * ((side w h ^ 2 * (14 * side w h ^ 2 - 3 * ((p.x - ((w + 1) / 2 : Nat)) ^ 2 +
      (p.y - ((h + 1) / 2 : Nat)) ^ 2) - side w h * (p.y - ((h + 1) / 2 : Nat))) : Int) : ℚ) ∨
      r = -(4 * ((side w h ^ 2 * (14 * side w h ^ 2 - 3 * ((p.x - ((w + 1) / 2 : Nat)) ^ 2 +
      (p.y - ((h + 1) / 2 : Nat)) ^ 2) - side w h * (p.y - ((h + 1) / 2 : Nat))) : Int) : ℚ))) → ∃ z : Int, r = 4 * z := by
    rintro r (h | h | h)
    · exact ⟨0, by rw [h]; norm_num⟩
    · exact ⟨_, h⟩
    · exact ⟨_, by rw [h, ← mul_neg, ← Int.cast_neg]⟩
  apply fin
  unfold inc toP
  simp only
  rcases super_verts k ha with ⟨e1, e2⟩ | ⟨e1, e2⟩ | ⟨e1, e2⟩ <;>
  rcases super_verts k hb with ⟨f1, f2⟩ | ⟨f1, f2⟩ | ⟨f1, f2⟩ <;>
  rcases super_verts k hc with ⟨g1, g2⟩ | ⟨g1, g2⟩ | ⟨g1, g2⟩ <;> rw [e1, e2, f1, f2, g1, g2] <;>
  set X := (w + 1) / 2 <;> set Y := (h + 1) / 2 <;> push_cast <;>
  first
  | (left; ring1)
  | (right; left; ring1)
  | (right; right; ring1)

/-- The in-circle determinant with at most one corner of the bounding triangle. -/
theorem inc_one_le {u x y p : Pt} (hu : Ok w h u) (hx : InImg w h x) (hy : InImg w h y) (hp : InImg w h p) :
    inc (toP u) (toP x) (toP y) (toP p) ≤ 30 * (side w h : ℚ) ^ 4 + 60 * (side w h : ℚ) ^ 3 := by
  rw [inc_eq_sum]
  have d1 := grid_near' k (a := toP u) (p := toP p) ⟨u, hu, rfl⟩ ⟨p, hp, rfl⟩
  have d2 := img_far k hx hp
  have d3 := img_far k hy hp
  have o1 := (abs_le.mp (img_ori3 k hp hx hy)).2
  have o2 : ori (toP p) (toP y) (toP u) ≤ 9 / 2 * (side w h : ℚ) ^ 2 := by
    have := img_ori k hy hu hp
    rw [ori_rot] at this
    linarith
  have o3 : ori (toP p) (toP u) (toP x) ≤ 9 / 2 * (side w h : ℚ) ^ 2 := by
    have := img_ori k hp hu hx
    linarith
  have m : ∀ {N N' r s : ℚ}, 0 ≤ N → N ≤ N' → r ≤ s → 0 ≤ s → N * r ≤ N' * s := fun h1 h2 h3 h4 =>
    (mul_le_mul_of_nonneg_left h3 h1).trans (mul_le_mul_of_nonneg_right h2 h4)
  have t1 := m (nsq_nonneg _ _) d1 o1 (by positivity)
  have t2 := m (nsq_nonneg _ _) d2 o2 (by positivity)
  have t3 := m (nsq_nonneg _ _) d3 o3 (by positivity)
  have n3 : 0 ≤ (side w h : ℚ) ^ 3 := by positivity
  have n4 : 0 ≤ (side w h : ℚ) ^ 4 := by positivity
  linarith

/-- Size of the in-circle determinant. -/
theorem inc_size {a b c p : Pt} (ha : Ok w h a) (hb : Ok w h b) (hc : Ok w h c) (hp : InImg w h p)
    (ho : 0 < ori (toP a) (toP b) (toP c)) :
    inc (toP a) (toP b) (toP c) (toP p) ≤ incMax (side w h) ∨
      (∃ z : Int, inc (toP a) (toP b) (toP c) (toP p) = 4 * z) ∧
        inc (toP a) (toP b) (toP c) (toP p) ≤ 4 * incMax (side w h) := by
  have e : ((incMax (side w h) : Int) : ℚ) = 30 * (side w h : ℚ) ^ 4 + 60 * (side w h : ℚ) ^ 3 := by
    unfold incMax; push_cast; ring
  have two : ∀ {u v m : Pt}, (newSuperTriangle w h).hasVertex u = true → (newSuperTriangle w h).hasVertex v = true →
      InImg w h m → (inc (toP a) (toP b) (toP c) (toP p) = inc (toP u) (toP v) (toP m) (toP p)) →
      inc (toP a) (toP b) (toP c) (toP p) ≤ incMax (side w h) := by
    intro u v m h1 h2 h3 h4
    rw [h4, e]
    exact le_of_abs_le (inc_two_le k h1 h2 h3 hp)
  have one : ∀ {u x y : Pt}, Ok w h u → InImg w h x → InImg w h y →
      (inc (toP a) (toP b) (toP c) (toP p) = inc (toP u) (toP x) (toP y) (toP p)) →
      inc (toP a) (toP b) (toP c) (toP p) ≤ incMax (side w h) := by
    intro u x y h1 h2 h3 h4
    rw [h4, e]
    exact inc_one_le k h1 h2 h3 hp
  have r1 : inc (toP a) (toP b) (toP c) (toP p) = inc (toP b) (toP c) (toP a) (toP p) := by unfold inc; ring
  have r2 : inc (toP a) (toP b) (toP c) (toP p) = inc (toP c) (toP a) (toP b) (toP p) := by unfold inc; ring
  have all := grid_inc k ⟨p, hp, rfl⟩ ⟨a, ha, rfl⟩ ⟨b, hb, rfl⟩ ⟨c, hc, rfl⟩ ho
  rcases ha with ia | sa
  · rcases hb with ib | sb
    · exact Or.inl (one hc ia ib r2)
    · rcases hc with ic | sc
      · exact Or.inl (one (Or.inr sb) ic ia r1)
      · exact Or.inl (two sb sc ia r1)
  · rcases hb with ib | sb
    · rcases hc with ic | sc
      · exact Or.inl (one (Or.inr sa) ib ic rfl)
      · exact Or.inl (two sc sa ib r2)
    · rcases hc with ic | sc
      · exact Or.inl (two sa sb ic rfl)
      · refine Or.inr ⟨inc_three k sa sb sc, all.trans ?_⟩
        rw [e]
        have n3 : 0 ≤ (side w h : ℚ) ^ 3 := by positivity
        have n4 : 0 ≤ (side w h : ℚ) ^ 4 := by positivity
        linarith

omit k in
/-- The distance of a point far to the side. -/
theorem far_sum {n x y : ℚ} (hn : 2 ≤ n) (hx : 3 / 2 * n - 1 / 2 ≤ x) (hy : 0 ≤ y) :
    n ^ 2 * (x + y) ≤ (81 / 100 * n + 1) * (x ^ 2 + y ^ 2) := by
  have x0 : 0 ≤ x := by linarith
  have c : 0 ≤ 81 / 100 * n + 1 := by linarith
  have h1 : 828 / 1000 * (x * (x + y)) ≤ x ^ 2 + y ^ 2 := by
    have := sq_nonneg (y - 414 / 1000 * x)
    have := sq_nonneg x
    linarith
  have h2 : n ^ 2 ≤ (81 / 100 * n + 1) * (828 / 1000 * x) := by
    have := mul_le_mul_of_nonneg_left hx c
    have := mul_le_mul_of_nonneg_left hn (show 0 ≤ n by linarith)
    linarith
  have h3 := mul_le_mul_of_nonneg_left h1 c
  have h4 := mul_le_mul_of_nonneg_right h2 (show 0 ≤ x + y by linarith)
  linarith

/-- The side of the image is far from the corners of the bounding triangle. -/
theorem super_sum {b p : Pt} (hb : (newSuperTriangle w h).hasVertex b = true) (hp : InImg w h p) :
    (side w h : ℚ) ^ 2 * (|(b.x : ℚ) - p.x| + |(b.y : ℚ) - p.y|) ≤ (81 / 100 * side w h + 1) * nsq (toP b) (toP p) := by
  have hs := side_bounds k
  have := k.w1; have := k.h1
  obtain ⟨p1, p2, p3, p4⟩ := hp
  have n2 : (2 : ℚ) ≤ side w h := by exact_mod_cast hs.1
  have e : nsq (toP b) (toP p) = |(b.x : ℚ) - p.x| ^ 2 + |(b.y : ℚ) - p.y| ^ 2 := by
    rw [sq_abs, sq_abs]; rfl
  have cast : ∀ {i j : Int}, 3 * (side w h : Int) - 1 ≤ 2 * (i - j) ∨ 3 * (side w h : Int) - 1 ≤ -(2 * (i - j)) →
      3 / 2 * (side w h : ℚ) - 1 / 2 ≤ |(i : ℚ) - j| := by
    intro i j hij
    rcases hij with h1 | h1
    · have : (3 : ℚ) * side w h - 1 ≤ 2 * (i - j) := by exact_mod_cast h1
      have := le_abs_self ((i : ℚ) - j)
      linarith
    · have : (3 : ℚ) * side w h - 1 ≤ -(2 * (i - j)) := by exact_mod_cast h1
      have := neg_le_abs ((i : ℚ) - j)
      linarith
  rw [e]
  rcases super_verts k hb with ⟨e1, e2⟩ | ⟨e1, e2⟩ | ⟨e1, e2⟩
  · exact far_sum n2 (cast (by omega)) (abs_nonneg _)
  · have := far_sum n2 (cast (i := b.y) (j := p.y) (by omega)) (abs_nonneg ((b.x : ℚ) - p.x))
    linarith
  · exact far_sum n2 (cast (by omega)) (abs_nonneg _)

/-- A corner of the bounding triangle as the tip of the ear. -/
theorem quad_tip {a b c v p : Pt} (ha : InImg w h a) (hb : (newSuperTriangle w h).hasVertex b = true) (hc : InImg w h c)
    (hv : InImg w h v) (hp : InImg w h p) (ho : 0 < ori (toP a) (toP b) (toP c))
    (hI : 0 < inc (toP a) (toP b) (toP c) (toP p)) :
    nsq (toP b) (toP v) * ori (toP a) (toP b) (toP c) * inc (toP a) (toP b) (toP c) (toP p) ≤
      (15 * (side w h : ℚ) ^ 4 + 192 * (side w h : ℚ) ^ 3) *
        (inc (toP a) (toP b) (toP c) (toP p) + nsq (toP b) (toP p) * ori (toP a) (toP b) (toP c)) := by
  have hs := side_bounds k
  have n2 : (2 : ℚ) ≤ side w h := by exact_mod_cast hs.1
  have far := super_sum k hb hp
  have V1 := grid_near' k (a := toP b) (p := toP v) ⟨b, Or.inr hb, rfl⟩ ⟨v, hv, rfl⟩
  have A1 := grid_near' k (a := toP b) (p := toP a) ⟨b, Or.inr hb, rfl⟩ ⟨a, ha, rfl⟩
  have C1 := grid_near' k (a := toP b) (p := toP c) ⟨b, Or.inr hb, rfl⟩ ⟨c, hc, rfl⟩
  have A0 := nsq_nonneg (toP a) (toP b)
  have C0 := nsq_nonneg (toP b) (toP c)
  have V0 := nsq_nonneg (toP b) (toP v)
  have P0 := nsq_nonneg (toP b) (toP p)
  have sym : nsq (toP b) (toP a) = nsq (toP a) (toP b) := by unfold nsq; ring
  rw [sym] at A1
  have tip := inc_tip (toP a) (toP b) (toP c) (toP p)
  have dx0 := abs_nonneg ((b.x : ℚ) - p.x)
  have dy0 := abs_nonneg ((b.y : ℚ) - p.y)
  have im : ∀ {q r : Pt}, InImg w h q → InImg w h r → |(q.x : ℚ) - r.x| ≤ side w h ∧ |(q.y : ℚ) - r.y| ≤ side w h := by
    intro q r ⟨a1, a2, a3, a4⟩ ⟨b1, b2, b3, b4⟩
    have i1 : |q.x - r.x| ≤ (side w h : Int) := abs_le.mpr ⟨by omega, by omega⟩
    have i2 : |q.y - r.y| ≤ (side w h : Int) := abs_le.mpr ⟨by omega, by omega⟩
    exact ⟨by exact_mod_cast i1, by exact_mod_cast i2⟩
  have cross : ∀ {q r : Pt}, InImg w h q → InImg w h r →
      ((b.x : ℚ) - p.x) * (q.y - r.y) - ((b.y : ℚ) - p.y) * (q.x - r.x) ≤
        side w h * (|(b.x : ℚ) - p.x| + |(b.y : ℚ) - p.y|) := by
    intro q r h1 h2
    obtain ⟨i1, i2⟩ := im h1 h2
    have t1 := (le_abs_self _).trans ((abs_mul ((b.x : ℚ) - p.x) (q.y - r.y)).le.trans (mul_le_mul_of_nonneg_left i2 dx0))
    have t2 := (neg_le_abs _).trans ((abs_mul ((b.y : ℚ) - p.y) (q.x - r.x)).le.trans (mul_le_mul_of_nonneg_left i1 dy0))
    linarith
  have X1 : ori (toP b) (toP c) (toP p) ≤ side w h * (|(b.x : ℚ) - p.x| + |(b.y : ℚ) - p.y|) := by
    have := cross hc hp
    unfold ori toP
    simp only
    linarith
  have Z1 : ori (toP a) (toP b) (toP p) ≤ side w h * (|(b.x : ℚ) - p.x| + |(b.y : ℚ) - p.y|) := by
    have := cross hp ha
    unfold ori toP
    simp only
    linarith
  have W1 : ori (toP b) (toP c) (toP p) + ori (toP a) (toP b) (toP p) ≤
      side w h * (|(b.x : ℚ) - p.x| + |(b.y : ℚ) - p.y|) := by
    have := cross hc ha
    unfold ori toP
    simp only
    linarith
  have S0 : 0 ≤ |(b.x : ℚ) - p.x| + |(b.y : ℚ) - p.y| := by linarith
  generalize |(b.x : ℚ) - p.x| + |(b.y : ℚ) - p.y| = S at *
  generalize inc (toP a) (toP b) (toP c) (toP p) = I at *
  generalize ori (toP b) (toP c) (toP p) = X at *
  generalize ori (toP a) (toP b) (toP p) = Z at *
  generalize ori (toP a) (toP b) (toP c) = O at *
  generalize nsq (toP a) (toP b) = α at *
  generalize nsq (toP b) (toP c) = γ at *
  generalize nsq (toP b) (toP v) = V at *
  generalize nsq (toP b) (toP p) = P at *
  generalize (side w h : ℚ) = n at *
  have n0 : 0 < n := by linarith
  have hN : 0 < 17 / 2 * n ^ 2 + 5 * n := by positivity
  obtain ⟨N, hNe⟩ : ∃ N, N = 17 / 2 * n ^ 2 + 5 * n := ⟨_, rfl⟩
  rw [← hNe] at V1 A1 C1 hN
  obtain ⟨Q, hQ⟩ : ∃ Q, Q = I + P * O := ⟨_, rfl⟩
  rw [← hQ]
  have hQ2 : Q = α * X + γ * Z := by rw [hQ, tip]; ring
  have PO := mul_nonneg P0 ho.le
  have Q0 : 0 < Q := by linarith
  have T0 : 0 ≤ n * S := mul_nonneg n0.le S0
  have Q1 : Q ≤ N * (n * S) := by
    rw [hQ2]
    have part : ∀ {β x : ℚ}, 0 ≤ β → β ≤ N → β * x ≤ N * max x 0 := fun h1 h2 =>
      (mul_le_mul_of_nonneg_left (le_max_left _ 0) h1).trans (mul_le_mul_of_nonneg_right h2 (le_max_right _ 0))
    have q1 := part (x := X) A0 A1
    have q2 := part (x := Z) C0 C1
    have tot : max X 0 + max Z 0 ≤ n * S := by
      rcases max_cases X 0 with ⟨g1, _⟩ | ⟨g1, _⟩ <;> rcases max_cases Z 0 with ⟨g2, _⟩ | ⟨g2, _⟩ <;> rw [g1, g2] <;> linarith
    have := mul_le_mul_of_nonneg_left tot hN.le
    linarith
  have Ppos : 0 < P := by
    by_contra hneg
    have : P = 0 := le_antisymm (not_lt.mp hneg) P0
    rw [this, mul_zero] at far
    have : S ≤ 0 := by
      by_contra hS
      have := mul_pos (show 0 < n ^ 2 by positivity) (not_le.mp hS)
      linarith
    have : N * (n * S) ≤ 0 := mul_nonpos_of_nonneg_of_nonpos hN.le (mul_nonpos_of_nonneg_of_nonpos n0.le this)
    linarith
  -- the parabola
  have par : 4 * P * (O * I) ≤ Q ^ 2 := by
    have e : Q ^ 2 - 4 * P * (O * I) = (Q - 2 * (P * O)) ^ 2 := by rw [hQ]; ring
    have := sq_nonneg (Q - 2 * (P * O))
    linarith
  have s1 : V * (4 * P * (O * I)) ≤ N * (Q * Q) := by
    have := mul_le_mul V1 par (mul_nonneg (by linarith) (mul_nonneg ho.le hI.le)) hN.le
    linarith
  have s2 : N * (Q * Q) ≤ N * (Q * (N * (n * S))) :=
    mul_le_mul_of_nonneg_left (mul_le_mul_of_nonneg_left Q1 Q0.le) hN.le
  have s3 : N * (Q * (N * (n ^ 2 * S))) ≤ N * (Q * (N * ((81 / 100 * n + 1) * P))) :=
    mul_le_mul_of_nonneg_left (mul_le_mul_of_nonneg_left (mul_le_mul_of_nonneg_left far hN.le) Q0.le) hN.le
  have s4 : P * (4 * n * (V * O * I)) ≤ P * (N ^ 2 * (81 / 100 * n + 1) * Q) := by
    have := mul_le_mul_of_nonneg_left (s1.trans s2) n0.le
    linarith
  have s5 := le_of_mul_le_mul_left s4 Ppos
  have s6 : N ^ 2 * (81 / 100 * n + 1) ≤ 4 * n * (15 * n ^ 4 + 192 * n ^ 3) := by
    rw [hNe]
    have m3 : n ^ 3 * 2 ≤ n ^ 3 * n := mul_le_mul_of_nonneg_left n2 (by positivity)
    have m2 : n ^ 2 * 2 ≤ n ^ 2 * n := mul_le_mul_of_nonneg_left n2 (by positivity)
    have m5 : 0 ≤ n ^ 5 := by positivity
    have m4 : 0 ≤ n ^ 4 := by positivity
    linarith
  have s7 := s5.trans (mul_le_mul_of_nonneg_right s6 Q0.le)
  have s8 : 4 * n * (V * O * I) ≤ 4 * n * ((15 * n ^ 4 + 192 * n ^ 3) * Q) := by linarith
  exact le_of_mul_le_mul_left s8 (by linarith)

theorem grid_quad {a b c v p : P2} (hp : OnImg w h p) (ha : OnGrid w h a) (hb : OnGrid w h b) (hc : OnGrid w h c)
    (hv : OnGrid w h v) (ho : 0 < ori a b c) (hD : 0 < inc a b c v) (hI : 0 < inc a b c p) :
    nsq b v * ori a b c * inc a b c p ≤
      (15 * (side w h : ℚ) ^ 4 + 192 * (side w h : ℚ) ^ 3) * (inc a b c v * (inc a b c p + nsq b p * ori a b c)) := by
  have far := grid_far k hb hv
  have big := le_of_abs_le (grid_ori k ha hb hc)
  have nn := nsq_nonneg b v
  have n0 : (0 : ℚ) ≤ side w h := by positivity
  have n3 : (0 : ℚ) ≤ (side w h : ℚ) ^ 3 := by positivity
  have n4 : (0 : ℚ) ≤ (side w h : ℚ) ^ 4 := by positivity
  have n2 : (0 : ℚ) ≤ (side w h : ℚ) ^ 2 := by positivity
  have weak : nsq b v * ori a b c ≤ (15 * (side w h : ℚ) ^ 4 + 192 * (side w h : ℚ) ^ 3) * inc a b c v →
      nsq b v * ori a b c * inc a b c p ≤
        (15 * (side w h : ℚ) ^ 4 + 192 * (side w h : ℚ) ^ 3) * (inc a b c v * (inc a b c p + nsq b p * ori a b c)) := by
    intro hle
    have t1 := mul_le_mul_of_nonneg_right hle hI.le
    have t2 := mul_nonneg (mul_nonneg (show 0 ≤ 15 * (side w h : ℚ) ^ 4 + 192 * (side w h : ℚ) ^ 3 by linarith) hD.le)
      (mul_nonneg (nsq_nonneg b p) ho.le)
    linarith
  -- two corners of the bounding triangle
  have two : (side w h : ℚ) ≤ inc a b c v →
      nsq b v * ori a b c ≤ (15 * (side w h : ℚ) ^ 4 + 192 * (side w h : ℚ) ^ 3) * inc a b c v := by
    intro hle
    have t1 : nsq b v * ori a b c ≤ (16 * (side w h : ℚ) ^ 2) * (12 * (side w h : ℚ) ^ 2) :=
      mul_le_mul far big ho.le (by linarith)
    have t2 := mul_le_mul_of_nonneg_left hle (show 0 ≤ 192 * (side w h : ℚ) ^ 3 by linarith)
    have t3 := mul_nonneg (show 0 ≤ 15 * (side w h : ℚ) ^ 4 by linarith) hD.le
    linarith
  -- at most one
  have one : 1 ≤ inc a b c v → nsq b v * ori a b c ≤ 15 * (side w h : ℚ) ^ 4 →
      nsq b v * ori a b c ≤ (15 * (side w h : ℚ) ^ 4 + 192 * (side w h : ℚ) ^ 3) * inc a b c v := by
    intro h1 hle
    have t2 := mul_le_mul_of_nonneg_left h1 (show 0 ≤ 15 * (side w h : ℚ) ^ 4 by linarith)
    have t3 := mul_nonneg (show 0 ≤ 192 * (side w h : ℚ) ^ 3 by linarith) hD.le
    linarith
  obtain ⟨a, ha', rfl⟩ := id ha
  obtain ⟨b, hb', rfl⟩ := id hb
  obtain ⟨c, hc', rfl⟩ := id hc
  obtain ⟨v, hv', rfl⟩ := id hv
  obtain ⟨p, ip, rfl⟩ := id hp
  have dOne : 1 ≤ inc (toP a) (toP b) (toP c) (toP v) := by
    have := mult_ge (m := 1) (r := inc (toP a) (toP b) (toP c) (toP v))
      ⟨((a.x-v.x)*(a.x-v.x)+(a.y-v.y)*(a.y-v.y))*((b.x-v.x)*(c.y-v.y)-(c.x-v.x)*(b.y-v.y)) +
      ((b.x-v.x)*(b.x-v.x)+(b.y-v.y)*(b.y-v.y))*((c.x-v.x)*(a.y-v.y)-(a.x-v.x)*(c.y-v.y)) +
      ((c.x-v.x)*(c.x-v.x)+(c.y-v.y)*(c.y-v.y))*((a.x-v.x)*(b.y-v.y)-(b.x-v.x)*(a.y-v.y)), by
        unfold inc toP; push_cast; ring⟩ hD
    simpa using this
  have sym : ∀ x y : P2, nsq x y = nsq y x := fun x y => by unfold nsq; ring
  -- bounds on the two factors
  have fac : ∀ P Q : ℚ, nsq (toP b) (toP v) ≤ P * (side w h : ℚ) ^ 2 → ori (toP a) (toP b) (toP c) ≤ Q * (side w h : ℚ) ^ 2 →
      0 ≤ P → P * Q ≤ 15 → nsq (toP b) (toP v) * ori (toP a) (toP b) (toP c) ≤ 15 * (side w h : ℚ) ^ 4 := by
    intro P Q hP hQ h0 hPQ
    have t1 := mul_le_mul hP hQ ho.le (mul_nonneg h0 n2)
    have t2 := mul_le_mul_of_nonneg_right hPQ n4
    linarith
  have pm : ∀ {u x y z : Pt}, (newSuperTriangle w h).hasVertex u = true → (newSuperTriangle w h).hasVertex x = true →
      (inc (toP a) (toP b) (toP c) (toP v) = inc (toP u) (toP x) (toP y) (toP z) ∨
        inc (toP a) (toP b) (toP c) (toP v) = - inc (toP u) (toP x) (toP y) (toP z)) →
      (side w h : ℚ) ≤ inc (toP a) (toP b) (toP c) (toP v) := by
    intro u x y z h1 h2 he
    obtain ⟨t, ht⟩ := inc_two k (x := y) (y := z) h1 h2
    rcases he with e | e
    · exact mult_ge ⟨t, e.trans ht⟩ hD
    · exact mult_ge ⟨-t, by rw [e, ht]; push_cast; ring⟩ hD
  rcases ha' with ia | sa
  · rcases hb' with ib | sb
    · rcases hv' with iv | sv
      · refine weak (one dOne (fac 2 (9 / 2) (img_far k ib iv) ?_ (by norm_num) (by norm_num)))
        have := img_ori k ib hc' ia
        rw [ori_rot] at this
        linarith
      · rcases hc' with ic | sc
        · refine weak (one dOne (fac 11 1 ?_ ?_ (by norm_num) (by norm_num)))
          · rw [sym]; exact grid_near k hv ⟨b, ib, rfl⟩
          · have := (abs_le.mp (img_ori3 k ia ib ic)).2
            linarith
        · exact weak (two (pm (y := a) (z := b) sc sv (by unfold inc; left; ring1)))
    · rcases hv' with iv | sv
      · rcases hc' with ic | sc
        · have := quad_tip k ia sb ic iv ip ho hI
          have t0 : 0 ≤ (15 * (side w h : ℚ) ^ 4 + 192 * (side w h : ℚ) ^ 3) *
              (inc (toP a) (toP b) (toP c) (toP p) + nsq (toP b) (toP p) * ori (toP a) (toP b) (toP c)) :=
            mul_nonneg (by linarith) (add_nonneg hI.le (mul_nonneg (nsq_nonneg _ _) ho.le))
          have t1 := mul_le_mul_of_nonneg_right dOne t0
          linarith
        · exact weak (two (pm (y := a) (z := v) sb sc (by unfold inc; left; ring1)))
      · exact weak (two (pm (y := a) (z := c) sb sv (by unfold inc; right; ring1)))
  · rcases hb' with ib | sb
    · rcases hv' with iv | sv
      · rcases hc' with ic | sc
        · refine weak (one dOne (fac 2 (9 / 2) (img_far k ib iv) ?_ (by norm_num) (by norm_num)))
          have := img_ori k ic (Or.inr sa) ib
          rw [ori_rot, ori_rot] at this
          linarith
        · exact weak (two (pm (y := b) (z := v) sc sa (by unfold inc; left; ring1)))
      · exact weak (two (pm (y := c) (z := b) sa sv (by unfold inc; right; ring1)))
    · exact weak (two (pm (y := c) (z := v) sa sb (by unfold inc; left; ring1)))

theorem onGrid_lat {p : P2} (hp : OnImg w h p) :
    Lat (OnGrid w h) p (15 * (side w h : ℚ) ^ 4 + 192 * (side w h : ℚ) ^ 3) :=
  ⟨fun _ _ _ _ ha hb hc hv ho hD hI => grid_quad k hp ha hb hc hv ho hD hI⟩

theorem earErr_small : earErr (side w h) < 1 ∧
    earErr (side w h) * (15 * (side w h : ℚ) ^ 4 + 192 * (side w h : ℚ) ^ 3 + 1) < 1 := by
  have h1 : 2 ≤ side w h := by have := side_bounds k; omega
  have h1' : (2 : ℚ) ≤ side w h := by exact_mod_cast h1
  have h2 : (2 : ℚ) < (side w h : ℚ) ^ 4 :=
    lt_of_lt_of_le (by norm_num) (pow_le_pow_left₀ (by norm_num) h1' 4)
  have h3 : (0 : ℚ) ≤ (side w h : ℚ) ^ 3 := by positivity
  unfold earErr
  constructor
  · rw [div_lt_one (by positivity)]; linarith
  · rw [one_div_mul_eq_div, div_lt_one (by positivity)]; linarith

end

/-! ### Scores -/

/-- The score of the code against the exact score. -/
theorem score_spec {w h : Nat} (k : SizeOk w h) {a b c p : Pt} (ha : Ok w h a) (hb : Ok w h b)
    (hc : Ok w h c) (hp : InImg w h p) (fl : ℚ → ℚ) :
    (0 < ori (toP a) (toP b) (toP c) ↔ (calculateScore fl a b c p).isSome) ∧
    (0 < ori (toP a) (toP b) (toP c) → 0 < orientation a b c ∧ orientation a b c ≤ 12 * (side w h : Int) ^ 2 ∧
      (inCircle a b c p ≤ incMax (side w h) ∨ 4 ∣ inCircle a b c p ∧ inCircle a b c p ≤ 4 * incMax (side w h)) ∧
      calculateScore fl a b c p = some (fl (fl (inCircle a b c p) / fl (orientation a b c))) ∧
      score (toP p) (toP a) (toP b) (toP c) = (inCircle a b c p : ℚ) / orientation a b c) := by
  have e := orientation_eq (ha.near k) (hb.near k) (hc.near k)
  have hpos : 0 < ori (toP a) (toP b) (toP c) ↔ 0 < orientation a b c := by
    rw [← e]; exact_mod_cast Iff.rfl
  constructor
  · rw [hpos]
    unfold calculateScore
    simp only
    by_cases h0 : orientation a b c ≤ 0
    · rw [if_pos h0]; simp; omega
    · rw [if_neg h0]; simp; omega
  · intro ho
    have ho' := hpos.mp ho
    have hin : inCircle a b c p = inCircleDet a b c p := by
      unfold inCircle; rw [if_neg (by omega)]
    refine ⟨ho', (abs_le.mp (ori_bound k ha hb hc)).2, ?_, ?_, ?_⟩
    · have := inc_size k ha hb hc hp ho
      rw [← inCircleDet_eq (ha.close k hp) (hb.close k hp) (hc.close k hp)] at this
      rw [hin]
      rcases this with h | ⟨⟨z, hz⟩, h⟩
      · exact Or.inl (by exact_mod_cast h)
      · exact Or.inr ⟨⟨z, by exact_mod_cast hz⟩, by exact_mod_cast h⟩
    · unfold calculateScore
      simp only
      rw [if_neg (by omega)]
    · rw [hin, inCircleDet_eq (ha.close k hp) (hb.close k hp) (hc.close k hp), e]
      have := T3.pow_inc ⟨toP a, toP b, toP c⟩ ho.ne' (toP p)
      unfold T3.pow T3.or at this
      simp only at this
      unfold score
      rw [eq_div_iff ho.ne']
      linarith

/-! ### The ear loop -/

theorem cyc_map {α β} (f : α → β) (l : List α) : cyc (l.map f) = (cyc l).map (Prod.map f f) := by
  rw [cyc_zip, cyc_zip, ← List.map_rotate, ← List.zip_map]

theorem norm_rep {a b c : Pt} (h : 0 < ori (toP a) (toP b) (toP c)) :
    (norm ⟨a, b, c⟩).Rep (toP a) (toP b) (toP c) := by
  unfold norm
  rw [if_pos h]
  exact Or.inl rfl

theorem ear_ok {w h : Nat} {E : List Ear} (C : Consist E) (ok : ∀ e ∈ E, Ok w h e.a) :
    ∀ e ∈ E, Ok w h e.a ∧ Ok w h e.b ∧ Ok w h e.c := by
  have hb : ∀ e ∈ E, Ok w h e.b := by
    intro e he
    obtain ⟨e', h'⟩ := cyc_succ he
    rw [(C e e' h').1]; exact ok e' (cyc_mem h').2
  intro e he
  obtain ⟨e', h'⟩ := cyc_succ he
  exact ⟨ok e he, hb e he, by rw [(C e e' h').2]; exact hb e' (cyc_mem h').2⟩

/-- The ears are the triples of consecutive corners. -/
theorem ear_of_corners {E : List Ear} (C : Consist E) (hn : (E.map (fun e => toP e.a)).Nodup) {u v w : P2}
    (h1 : (u, v) ∈ cyc (E.map (fun e => toP e.a))) (h2 : (v, w) ∈ cyc (E.map (fun e => toP e.a))) :
    ∃ e ∈ E, u = toP e.a ∧ v = toP e.b ∧ w = toP e.c := by
  have h1' := h1
  rw [cyc_map, List.mem_map] at h1'
  obtain ⟨⟨e, e'⟩, hm, he⟩ := h1'
  simp only [Prod.map_apply, Prod.mk.injEq] at he
  obtain ⟨e'', hm'⟩ := cyc_succ (cyc_mem hm).2
  have h3 : (toP e'.a, toP e''.a) ∈ cyc (E.map (fun e => toP e.a)) := by
    rw [cyc_map, List.mem_map]
    exact ⟨(e', e''), hm', rfl⟩
  rw [he.2] at h3
  refine ⟨e, (cyc_mem hm).1, he.1.symm, ?_, ?_⟩
  · rw [← he.2, (C e e' hm).1]
  · rw [cyc_succ_unique hn h2 h3, (C e e' hm).2, (C e' e'' hm').1]

theorem corners_of_ear {E : List Ear} (C : Consist E) {e : Ear} (he : e ∈ E) :
    (toP e.a, toP e.b) ∈ cyc (E.map (fun e => toP e.a)) ∧ (toP e.b, toP e.c) ∈ cyc (E.map (fun e => toP e.a)) := by
  obtain ⟨e', hm⟩ := cyc_succ he
  obtain ⟨e'', hm'⟩ := cyc_succ (cyc_mem hm).2
  have c1 := C e e' hm
  have c2 := C e' e'' hm'
  rw [cyc_map]
  constructor
  · rw [c1.1]; exact List.mem_map.mpr ⟨(e, e'), hm, rfl⟩
  · rw [c1.1, c1.2, c2.1]; exact List.mem_map.mpr ⟨(e', e''), hm', rfl⟩

/-- The chosen ear is a convex ear of nearly least exact score. -/
theorem lowest_best {w h : Nat} (k : SizeOk w h) {fl : ℚ → ℚ} (hf : Faithful fl (side w h)) {p : Pt}
    (hp : InImg w h p) {E : List Ear} (C : Consist E) (S : Scored fl p E) (ok : ∀ e ∈ E, Ok w h e.a)
    {s : T3} {W : P2 → Prop} {A : List T3}
    (H : Gap s W (OnGrid w h) fl (toP p) A (E.map (fun e => toP e.a))) :
    ∃ e, E[lowestEar E 0 none 0]? = some e ∧
      NBest fl (toP p) (E.map (fun e => toP e.a)) (toP e.a) (toP e.b) (toP e.c) := by
  have ok' := ear_ok C ok
  obtain ⟨u, v, x, h1, h2, h3⟩ := H.exists_ear
  obtain ⟨e0, m0, rfl, rfl, rfl⟩ := ear_of_corners C H.nodup h1 h2
  obtain ⟨o1, o2, o3⟩ := ok' e0 m0
  have s0 : e0.score.isSome := by
    rw [S e0 m0]; exact (score_spec k o1 o2 o3 hp fl).1.mp h3
  rcases lowestEar_spec E 0 none 0 with ⟨_, hall⟩ | ⟨j, e, hj, hg, hlt, hmin⟩
  · have := hall e0 m0
    cases hs : e0.score with
    | none => rw [hs] at s0; cases s0
    | some z => rw [hs] at this; simp [scoreLt] at this
  · rw [Nat.zero_add] at hj
    rw [hj]
    refine ⟨e, hg, ?_⟩
    have me : e ∈ E := List.mem_of_getElem? hg
    obtain ⟨p1, p2, p3⟩ := ok' e me
    have sp := score_spec k p1 p2 p3 hp fl
    have hpos : 0 < ori (toP e.a) (toP e.b) (toP e.c) := by
      rw [sp.1, ← S e me]
      cases hs : e.score with
      | none => rw [hs] at hlt; simp [scoreLt] at hlt
      | some z => rfl
    refine ⟨hpos, ?_⟩
    intro u v x huv hvx ho n1 n2
    obtain ⟨f, mf, rfl, rfl, rfl⟩ := ear_of_corners C H.nodup huv hvx
    obtain ⟨q1, q2, q3⟩ := ok' f mf
    obtain ⟨a1, a2, a3, a4, a5⟩ := sp.2 hpos
    obtain ⟨b1, b2, b3, b4, b5⟩ := (score_spec k q1 q2 q3 hp fl).2 ho
    have := hmin f mf
    rw [S f mf, S e me, a4, b4] at this
    simp only [scoreLt, decide_eq_false_iff_not] at this
    rw [a5] at n1 ⊢
    rw [b5] at n2 ⊢
    have A1 : (0 : ℚ) < orientation e.a e.b e.c := by exact_mod_cast a1
    have B1 : (0 : ℚ) < orientation f.a f.b f.c := by exact_mod_cast b1
    have n1' : 0 ≤ inCircle e.a e.b e.c p := by
      have := (le_div_iff₀ A1).mp n1; rw [zero_mul] at this; exact_mod_cast this
    have n2' : 0 ≤ inCircle f.a f.b f.c p := by
      have := (le_div_iff₀ B1).mp n2; rw [zero_mul] at this; exact_mod_cast this
    have n4 : 12 * (side w h : Int) ^ 2 ≤ incMax (side w h) := by
      have := side_bounds k
      have n1 : (1 : Int) ≤ (side w h : Int) ^ 2 := one_le_pow₀ (by omega)
      have n3 : (0 : Int) ≤ (side w h : Int) ^ 3 := by positivity
      unfold incMax
      nlinarith
    rw [hf.int _ n1' a3, hf.int _ a1.le (Or.inl (a2.trans n4)), hf.int _ n2' b3, hf.int _ b1.le (Or.inl (b2.trans n4))] at this
    exact not_lt.mp this

theorem earLoop_spec {g : Geo} {w h : Nat} (k : SizeOk w h) {fl : ℚ → ℚ} (hf : Faithful fl (side w h)) {p : Pt}
    (hp : InImg w h p) {s : T3} {V : P2 → Prop} (hs : 0 < s.or) (hin : ∀ x, V x → Inside s x) :
    ∀ (n : Nat) (d : D) (E : List Ear), SInv g d → Consist E → Scored fl p E → (∀ e ∈ E, Ok w h e.a) →
      Gap s (fun x => V x ∨ s.Has x) (OnGrid w h) fl (toP p) ((live d).map norm) (E.map (fun e => toP e.a)) →
      E.length = n + 3 → (live d).length + n < 65536 →
      ∃ d', earLoop g fl p n d E = some d' ∧ SInv g d' ∧ Inv s V ((live d').map norm) ∧
        (live d').length = (live d).length + n + 1 ∧
        d'.tris.length = max d.tris.length (live d').length ∧
        (d'.pm = d.pm ∧ d'.sup = d.sup ∧ d'.numPoints = d.numPoints ∧ d'.unique = d.unique) ∧
        ∃ N, (live d').Perm (live d ++ N) ∧ ∀ t ∈ N, ∀ v, t.hasVertex v = true → ∃ e ∈ E, v = e.a := by
  intro n
  induction n with
  | zero =>
    intro d E S C Sc ok H hl hb
    match E, hl, C, H with
    | [e, f, x], _, C, H =>
      have c1 := C e f (by simp [cyc, path])
      have c2 := C f x (by simp [cyc, path])
      have H' : Gap s (fun x => V x ∨ s.Has x) (OnGrid w h) fl (toP p) ((live d).map norm) [toP e.a, toP e.b, toP e.c] := by
        rw [c1.1, c1.2, c2.1]; simpa using H
      have ho := H'.last_pos
      have ok' := ear_ok C ok e (by simp)
      have hfree : (⟨e.a, e.b, e.c⟩ : Tri).freed = false := by
        have := ok'.1.marker k
        simpa [Tri.freed] using this
      obtain ⟨d', a1, a2, a3, a4, a5⟩ := addTriangle_spec S hfree (by omega)
      refine ⟨d', by simpa [earLoop] using a1, a2, ?_, by rw [a3.length_eq]; simp, a4, a5, [⟨e.a, e.b, e.c⟩],
        a3.trans (List.perm_append_singleton _ _).symm, ?_⟩
      rotate_left
      · intro t ht v hv
        rw [List.mem_singleton] at ht
        subst ht
        have hv : v = e.a ∨ v = e.b ∨ v = e.c := by
          simp only [Tri.hasVertex, Bool.or_eq_true, beq_iff_eq] at hv
          rcases hv with (hv | hv) | hv <;> simp [hv]
        rcases hv with rfl | rfl | rfl
        · exact ⟨e, by simp, rfl⟩
        · exact ⟨f, by simp, by rw [c1.1]⟩
        · exact ⟨x, by simp, by rw [c1.2, c2.1]⟩
      refine Inv_perm (H'.finish hs hin (norm_rep ho)) ?_
      refine List.Perm.trans ?_ (a3.map norm).symm
      rw [List.map_cons]
      exact List.perm_append_singleton _ _
  | succ n ih =>
    intro d E S C Sc ok H hl hb
    obtain ⟨e, hg, hbest⟩ := lowest_best k hf hp C Sc ok H
    have me : e ∈ E := List.mem_of_getElem? hg
    have ok' := ear_ok C ok e me
    have hfree : (⟨e.a, e.b, e.c⟩ : Tri).freed = false := by
      have := ok'.1.marker k
      simpa [Tri.freed] using this
    obtain ⟨d', a1, a2, a3, a4, a5, a6, a7, a8⟩ := addTriangle_spec S hfree (by omega)
    obtain ⟨af, bf, R, hrot, E', hc, hrot'⟩ := cutEar_spec fl p (by omega) hg
    have hlenR : R ≠ [] := by
      rintro rfl
      have := hrot.perm.length_eq
      simp at this; omega
    obtain ⟨r, R, rfl⟩ : ∃ r R', R = r :: R' := by
      cases R with
      | nil => exact (hlenR rfl).elim
      | cons r R => exact ⟨r, R, rfl⟩
    have C1 := C.rot hrot
    have C2 : Consist E' := (C1.cut (fl := fl) (p := p) hlenR).rot hrot'.symm
    have k1 := C1 e af (by simp [cyc, path])
    have k2 := C1 af r (by simp [cyc, path])
    have hmemE : ∀ x, x ∈ E' → x.a = e.a ∨ ∃ y ∈ E, x.a = y.a := by
      intro x hx
      have := hrot'.perm.mem_iff.mp hx
      rcases List.mem_cons.mp this with rfl | hx
      · left; rfl
      · right
        rcases List.mem_append.mp hx with hx | hx
        · exact ⟨x, hrot.perm.mem_iff.mpr (by simp only [List.mem_cons, List.mem_append] at hx ⊢; tauto), rfl⟩
        · rw [List.mem_singleton] at hx
          subst hx
          exact ⟨bf, hrot.perm.mem_iff.mpr (by simp), rfl⟩
    have ok2 : ∀ x ∈ E', Ok w h x.a := by
      intro x hx
      rcases hmemE x hx with h' | ⟨y, hy, h'⟩
      · rw [h']; exact ok'.1
      · rw [h']; exact ok y hy
    have Sc2 : Scored fl p E' := by
      intro x hx
      have := hrot'.perm.mem_iff.mp hx
      rcases List.mem_cons.mp this with rfl | hx
      · rfl
      · rcases List.mem_append.mp hx with hx | hx
        · exact Sc x (hrot.perm.mem_iff.mpr (by simp only [List.mem_cons, List.mem_append] at hx ⊢; tauto))
        · rw [List.mem_singleton] at hx
          subst hx
          rfl
    have hr1 : E.map (fun e => toP e.a) ~r
        toP e.a :: toP e.b :: toP e.c :: (R.map (fun e => toP e.a) ++ [toP bf.a]) := by
      have := hrot.map (fun e => toP e.a)
      simp only [List.map_cons, List.map_append, List.map_nil, List.cons_append] at this
      rw [k1.1, k1.2, k2.1]
      exact this
    have hr2 : E'.map (fun e => toP e.a) ~r
        toP e.a :: toP e.c :: (R.map (fun e => toP e.a) ++ [toP bf.a]) := by
      have := hrot'.map (fun e => toP e.a)
      simp only [List.map_cons, List.map_append, List.map_nil, List.cons_append, mkEar] at this
      rw [k1.2, k2.1]
      exact this
    have H2 := H.step (onGrid_lat k ⟨p, hp, rfl⟩) (hf.keys (by have := side_bounds k; omega)) (earErr_nonneg _) (earErr_small k).1 (earErr_small k).2 hr1 hr2 (by simp; omega) hbest (norm_rep hbest.1)
    have H3 : Gap s (fun x => V x ∨ s.Has x) (OnGrid w h) fl (toP p) ((live d').map norm) (E'.map (fun e => toP e.a)) := by
      refine H2.perm ?_
      refine List.Perm.trans ?_ (a3.map norm).symm
      rw [List.map_cons]
      exact List.perm_append_singleton _ _
    have hl' : E'.length = n + 3 := by
      have e1 := hrot'.perm.length_eq
      have e2 := hrot.perm.length_eq
      simp at e1 e2; omega
    have hlive : (live d').length = (live d).length + 1 := by rw [a3.length_eq]; simp
    obtain ⟨d'', b1, b2, b3, b4, b5, ⟨b6, b7, b8, b9⟩, N, b10, b11⟩ := ih d' E' a2 C2 Sc2 ok2 H3 hl' (by omega)
    refine ⟨d'', ?_, b2, b3, by omega, by omega, ⟨b6.trans a5, b7.trans a6, b8.trans a7, b9.trans a8⟩,
      ⟨e.a, e.b, e.c⟩ :: N, ?_, ?_⟩
    · unfold earLoop
      simp only [hg, Option.bind_eq_bind, Option.bind_some, a1, hc, b1]
    · refine b10.trans ((a3.append_right N).trans ?_)
      rw [List.cons_append]
      exact List.perm_middle.symm
    · intro t ht v hv
      rcases List.mem_cons.mp ht with rfl | ht
      · have hv : v = e.a ∨ v = e.b ∨ v = e.c := by
          simp only [Tri.hasVertex, Bool.or_eq_true, beq_iff_eq] at hv
          rcases hv with (hv | hv) | hv <;> simp [hv]
        rcases hv with rfl | rfl | rfl
        · exact ⟨e, me, rfl⟩
        · exact ⟨af, hrot.perm.mem_iff.mpr (by simp), by rw [k1.1]⟩
        · exact ⟨r, hrot.perm.mem_iff.mpr (by simp), by rw [k1.2, k2.1]⟩
      · obtain ⟨x, hx, rfl⟩ := b11 t ht v hv
        rcases hmemE x hx with h' | ⟨y, hy, h'⟩
        · exact ⟨e, me, h'⟩
        · exact ⟨y, hy, h'⟩

/-! ### Remove -/

/-- **`Remove` of a stored point.** -/
theorem remove_full {g : Geo} {w h : Nat} {Q : Pt → Prop} (k : SizeOk w h) (G : GeoOK g w h Q) {fl : ℚ → ℚ}
    (hf : Faithful fl (side w h)) {d : D} {s : Multiset Pt} (I : DInv g w h d s) {p : Pt} (hm : p ∈ s) (hQ : Q p)
    (hd : s.dedup.card ≤ 32767) :
    ∃ d', remove g fl d p = some d' ∧ DInv g w h d' (s.erase p) ∧ d'.tris.length = d.tris.length ∧
      (s.count p = 1 → Replaces (·.hasVertex p) p d d') ∧ (s.count p ≠ 1 → live d' = live d) := by
  have hp := I.img p hm
  have hpos : 0 < s.count p := Multiset.count_pos.mpr hm
  obtain ⟨pm', p1, p2, p3, _⟩ := pmRemove_spec I.pm hpos
  have hcnt : (fun q => (s.erase p).count q) = Function.update (fun q => s.count q) p (s.count p - 1) := by
    funext q
    by_cases hq : q = p
    · subst hq; simp
    · rw [Function.update_of_ne hq, Multiset.count_erase_of_ne hq]
  have himg : ∀ q ∈ s.erase p, InImg w h q := fun q hq => I.img q (Multiset.mem_of_mem_erase hq)
  have hcard : (s.erase p).card = s.card - 1 := Multiset.card_erase_of_mem hm
  have hcp : 0 < s.card := Multiset.card_pos_iff_exists_mem.mpr ⟨p, hm⟩
  have hnp : d.numPoints - 1 = ((s.erase p).card : Int) := by rw [I.np, hcard]; omega
  have hpmn : pmNumPoints pm' = (s.erase p).card := by rw [hcard]; have := I.pmn; omega
  unfold remove
  simp only [p1, Option.bind_eq_bind, Option.bind_some]
  by_cases hc : s.count p - 1 = 0
  · rw [if_neg (by simpa using hc)]
    have hc1 : s.count p = 1 := by omega
    have hni : p ∉ s.erase p := by
      rw [← Multiset.count_eq_zero, Multiset.count_erase_self]; exact hc
    obtain ⟨c, hcell⟩ := G.cell p hp
    set d0 : D := { d with numPoints := d.numPoints - 1, pm := pm', unique := d.unique - 1 } with hd0
    have S0 : SInv g d0 := ⟨I.slots.free_nodup, I.slots.free_iff, I.slots.cell_nodup, I.slots.cell_iff⟩
    obtain ⟨d1, P, r1, S1, hperm, hq, hrest, r2, r3, r4, r5, r6⟩ :=
      removeLoop_spec (g := g) false (·.hasVertex p) c.1 c.2 (d0.cells c.1 c.2).length [] (d0.cells c.1 c.2)
        d0 [] S0 (by simp) rfl (by simp)
    rw [show live d0 = live d from rfl] at hperm
    have I0 := I.inv
    have okv : ∀ t ∈ live d, ∀ v, (v = t.a ∨ v = t.b ∨ v = t.c) → Ok w h v :=
      fun t ht v hv => verts_ok I.img I0 ht hv
    have or0 : ∀ t ∈ live d, 0 < (norm t).or := fun t ht => I0.ccw _ (List.mem_map_of_mem ht)
    have mP : ∀ t ∈ P, t ∈ live d := fun t ht => hperm.mem_iff.mpr (List.mem_append_left _ ht)
    have mR : ∀ t ∈ live d1, t ∈ live d := fun t ht => hperm.mem_iff.mpr (List.mem_append_right _ ht)
    have hT : ((live d).map norm).Perm (P.map norm ++ (live d1).map norm) := by
      rw [← List.map_append]; exact hperm.map norm
    have hP : ∀ t ∈ P.map norm, t.Has (toP p) := by
      intro t ht
      obtain ⟨u, hu, rfl⟩ := List.mem_map.mp ht
      exact (hasVertex_iff u p).mp (hq u hu)
    have hA : ∀ t ∈ (live d1).map norm, ¬ t.Has (toP p) := by
      intro t ht hhas
      obtain ⟨u, hu, rfl⟩ := List.mem_map.mp ht
      have ok := okv u (mR u hu)
      have hcov := G.cover u.a u.b u.c p c (ok _ (Or.inl rfl)) (ok _ (Or.inr (Or.inl rfl)))
        (ok _ (Or.inr (Or.inr rfl))) hp hQ (or0 u (mR u hu))
        (fun v hv => I0.del _ (List.mem_map_of_mem (mR u hu)) v (Or.inr hv))
        (T3.pow_vertex _ (or0 u (mR u hu)).ne' hhas).le hcell
      have := hrest u hu hcov
      rw [(hasVertex_iff u p).mpr hhas] at this
      cases this
    obtain ⟨hln, hlm⟩ := hull_list p P [] List.nodup_nil
    set L := P.foldl (addTriPoints p) [] with hL
    have hVp : VS s (toP p) := ⟨p, hm, rfl⟩
    have mem1 : ∀ u ∈ L, u ≠ p ∧ ∃ t ∈ P, u = t.a ∨ u = t.b ∨ u = t.c := by
      intro u hu
      rcases (hlm u).mp hu with h' | h'
      · cases h'
      · exact h'
    obtain ⟨M, hsort, hMp, hMs⟩ := hullSort_spec k hp hln
      (fun u hu => by
        obtain ⟨h1, t, ht, h2⟩ := mem1 u hu
        exact ⟨okv t (mP t ht) u h2, h1⟩)
      (fun u hu v hv huv hsd => by
        obtain ⟨h1, t, ht, h2⟩ := mem1 u hu
        obtain ⟨h1', t', ht', h2'⟩ := mem1 v hv
        refine huv (toP_inj (link_dirs I0 hVp (List.mem_map_of_mem (mP t ht)) (List.mem_map_of_mem (mP t' ht'))
          (hP _ (List.mem_map_of_mem ht)) (hP _ (List.mem_map_of_mem ht')) ?_ ?_
          (fun e => h1 (toP_inj e)) (fun e => h1' (toP_inj e)) hsd))
        · rw [norm_has]; rcases h2 with rfl | rfl | rfl <;> simp
        · rw [norm_has]; rcases h2' with rfl | rfl | rfl <;> simp)
    have hMn : (M.map toP).Nodup := by
      refine List.Nodup.map (fun a b h => toP_inj h) (hMp.nodup_iff.mpr hln)
    have hMm : ∀ x, x ∈ M.map toP ↔ x ≠ toP p ∧ ∃ t ∈ P.map norm, t.Has x := by
      intro x
      rw [List.mem_map]
      constructor
      · rintro ⟨u, hu, rfl⟩
        obtain ⟨h1, t, ht, h2⟩ := mem1 u (hMp.mem_iff.mp hu)
        refine ⟨fun e => h1 (toP_inj e), norm t, List.mem_map_of_mem ht, ?_⟩
        rw [norm_has]; rcases h2 with rfl | rfl | rfl <;> simp
      · rintro ⟨h1, t, ht, h2⟩
        obtain ⟨u, hu, rfl⟩ := List.mem_map.mp ht
        have hv : ∃ v, (v = u.a ∨ v = u.b ∨ v = u.c) ∧ toP v = x := by
          rcases (norm_has u x).mp h2 with rfl | rfl | rfl
          · exact ⟨u.a, Or.inl rfl, rfl⟩
          · exact ⟨u.b, Or.inr (Or.inl rfl), rfl⟩
          · exact ⟨u.c, Or.inr (Or.inr rfl), rfl⟩
        obtain ⟨v, hv, rfl⟩ := hv
        refine ⟨v, hMp.mem_iff.mpr ((hlm v).mpr (Or.inr ⟨fun e => h1 (by rw [e]), u, hu, hv⟩)), rfl⟩
    have hMs' : (M.map toP).Pairwise (AngLt (toP p)) := List.pairwise_map.mpr hMs
    have hMg : ∀ x ∈ M.map toP, OnGrid w h x := by
      intro x hx
      obtain ⟨u, hu, rfl⟩ := List.mem_map.mp hx
      obtain ⟨_, t, ht, h2⟩ := mem1 u (hMp.mem_iff.mp hu)
      exact ⟨u, okv t (mP t ht) u h2, rfl⟩
    have H := remove_gap (fl := fl) I0 hVp hT hP hA hMn hMm hMs' hMg
    have hstar := star_length I0 hVp hT hP hA hMn hMm
    have h3 := H.three
    rw [List.length_map] at h3
    rw [List.length_map, List.length_map] at hstar
    obtain ⟨el, ea, _⟩ := initEars_get fl p M
    have hcount := count_live I0
    rw [List.length_map] at hcount
    have hlenT := hperm.length_eq
    rw [List.length_append] at hlenT
    have H' : Gap (norm (newSuperTriangle w h)) (fun x => VS (s.erase p) x ∨ (norm (newSuperTriangle w h)).Has x)
        (OnGrid w h) fl (toP p) ((live d1).map norm) ((initEars fl p M).map (fun e => toP e.a)) := by
      have e1 : (initEars fl p M).map (fun e => toP e.a) = M.map toP := by
        conv_rhs => rw [← ea]
        rw [List.map_map]; rfl
      have e2 : (fun x => VS (s.erase p) x ∨ (norm (newSuperTriangle w h)).Has x) =
          fun x => (VS s x ∧ x ≠ toP p) ∨ (norm (newSuperTriangle w h)).Has x := by
        funext x
        refine propext (or_congr_left ?_)
        unfold VS
        constructor
        · rintro ⟨q, hq, rfl⟩
          exact ⟨⟨q, Multiset.mem_of_mem_erase hq, rfl⟩, fun e => hni (toP_inj e ▸ hq)⟩
        · rintro ⟨⟨q, hq, rfl⟩, hne⟩
          exact ⟨q, (Multiset.mem_erase_of_ne (fun e => hne (by rw [e]))).mpr hq, rfl⟩
      rw [e1, e2]; exact H
    have hok : ∀ e ∈ initEars fl p M, Ok w h e.a := by
      intro e he
      have : e.a ∈ M := by rw [← ea]; exact List.mem_map_of_mem (f := (·.a)) he
      obtain ⟨_, t, ht, h2⟩ := mem1 e.a (hMp.mem_iff.mp this)
      exact okv t (mP t ht) _ h2
    obtain ⟨d2, f1, f2, f3, f4, f5, ⟨f6, f7, f8, f9⟩, N, f10, f11⟩ := earLoop_spec (g := g) k hf hp I0.sccw
      (V := VS (s.erase p)) (fun x hx => by
        obtain ⟨q, hq, rfl⟩ := hx
        exact img_inside k (himg q hq))
      (M.length - 3) d1 (initEars fl p M) S1 (initEars_consist fl p M) (initEars_scored fl p M) hok H'
      (by omega) (by omega)
    have hcount2 := count_live f3
    rw [List.length_map] at hcount2
    have hslot := slots_len I.slots
    refine ⟨d2, ?_, ⟨f2, by rw [f7, r4]; exact I.sup, f3, himg, ?_, ?_, ?_, ?_⟩, ?_,
      fun _ => ⟨P, live d1, N, hperm, f10, hq, ?_, ?_⟩, fun h' => absurd hc1 h'⟩
    · simp only [hcell, Option.bind_some]
      have : removeLoop g false (·.hasVertex p) c.1 c.2 (d0.cells c.1 c.2).length 0 d0 [] = some (d1, P) := by
        simpa using r1
      rw [this]
      simp only [Option.bind_some]
      rw [← hL, hsort]
      simp only [Option.bind_some]
      rw [el]
      exact f1
    · rw [f6, r3, hcnt]; exact p2
    · rw [f8, r5]; exact hnp
    · rw [f6, r3]; exact hpmn
    · rw [f9, r6]
      simp only [hd0]
      rw [I.uq]
      have : s.dedup.card = (s.erase p).dedup.card + 1 := by
        conv_lhs => rw [← Multiset.cons_erase hm]
        rw [Multiset.dedup_cons_of_notMem hni]; simp
      omega
    · rw [f5, r2]
      have : d0.tris.length = d.tris.length := rfl
      omega
    · intro u hu
      rw [Bool.eq_false_iff]
      intro h'
      exact hA _ (List.mem_map_of_mem hu) ((hasVertex_iff u p).mp h')
    · intro t ht v hv
      obtain ⟨e, he, rfl⟩ := f11 t ht v hv
      have : e.a ∈ M := by rw [← ea]; exact List.mem_map_of_mem (f := (·.a)) he
      obtain ⟨_, u, hu, h2⟩ := mem1 e.a (hMp.mem_iff.mp this)
      refine Or.inr ⟨u, hu, ?_⟩
      simp only [Tri.hasVertex, Bool.or_eq_true, beq_iff_eq]
      rcases h2 with h2 | h2 | h2 <;> simp [h2]
  · rw [if_pos (by simpa using hc)]
    have hin : p ∈ s.erase p := by
      rw [← Multiset.count_pos, Multiset.count_erase_self]; omega
    refine ⟨_, rfl, ⟨⟨I.slots.free_nodup, I.slots.free_iff, I.slots.cell_nodup, I.slots.cell_iff⟩, I.sup, ?_,
      himg, by rw [hcnt]; exact p2, hnp, hpmn, ?_⟩, rfl, fun h' => absurd (by omega) hc, fun _ => rfl⟩
    · refine Inv_congr I.inv ?_
      intro x
      unfold VS
      constructor
      · rintro ⟨q, hq, rfl⟩
        by_cases he : q = p
        · exact ⟨p, hin, by rw [he]⟩
        · exact ⟨q, (Multiset.mem_erase_of_ne he).mpr hq, rfl⟩
      · rintro ⟨q, hq, rfl⟩
        exact ⟨q, Multiset.mem_of_mem_erase hq, rfl⟩
    · simp only
      rw [I.uq]
      conv_lhs => rw [← Multiset.cons_erase hm]
      rw [Multiset.dedup_cons_of_mem hin]

@[inherit_doc remove_full]
theorem remove_spec {g : Geo} {w h : Nat} {Q : Pt → Prop} (k : SizeOk w h) (G : GeoOK g w h Q) {fl : ℚ → ℚ}
    (hf : Faithful fl (side w h)) {d : D} {s : Multiset Pt} (I : DInv g w h d s) {p : Pt} (hm : p ∈ s) (hQ : Q p)
    (hd : s.dedup.card ≤ 32767) :
    ∃ d', remove g fl d p = some d' ∧ DInv g w h d' (s.erase p) ∧ d'.tris.length = d.tris.length :=
  let ⟨d', a, b, c, _⟩ := remove_full k G hf I hm hQ hd
  ⟨d', a, b, c⟩

end Verif.Incr

import Verif.Spec.Measure
import Mathlib.Analysis.Convex.Caratheodory
import Mathlib.LinearAlgebra.AffineSpace.FiniteDimensional

/-!
# Delaunay triangles cover the convex hull

For a location on no line through two of the points, the triangle around it with the lowest lifted height has no point inside its circle.
-/

namespace Verif.Spec

open Verif.Incr (Pt Tri)
open MeasureTheory

/-- Location of an integer point in the real plane. -/
def rloc (p : Pt) : ℝ × ℝ := (p.x, p.y)

/-- Height of a point on the paraboloid. -/
def lift (p : Pt) : ℝ := (p.x : ℝ) ^ 2 + (p.y : ℝ) ^ 2

/-- `q` is the mean of `a`, `b` and `c` with these weights. -/
structure Mean (a b c : Pt) (q : ℝ × ℝ) (l m n : ℝ) : Prop where
  sum : l + m + n = 1
  x : q.1 = l * a.x + m * b.x + n * c.x
  y : q.2 = l * a.y + m * b.y + n * c.y

theorem Mean.rot {a b c : Pt} {q : ℝ × ℝ} {l m n : ℝ} (M : Mean a b c q l m n) : Mean b c a q m n l :=
  ⟨by have := M.sum; linarith, by rw [M.x]; ring, by rw [M.y]; ring⟩

theorem Mean.flip {a b c : Pt} {q : ℝ × ℝ} {l m n : ℝ} (M : Mean a b c q l m n) : Mean b a c q m l n :=
  ⟨by have := M.sum; linarith, by rw [M.x]; ring, by rw [M.y]; ring⟩

/-- The areas are proportional to the weights. -/
theorem Mean.area {a b c : Pt} {q : ℝ × ℝ} {l m n : ℝ} (M : Mean a b c q l m n) : rarea b c q = l * rarea a b (rloc c) ∧ rarea c a q = m * rarea a b (rloc c) ∧
    rarea a b q = n * rarea a b (rloc c) := by
  have hl : l = 1 - m - n := by have := M.sum; linarith
  have hx := M.x
  have hy := M.y
  unfold rarea rloc
  simp only
  rw [hx, hy, hl]
  refine ⟨?_, ?_, ?_⟩ <;> ring

theorem mean_of {a b c : Pt} (h : rarea a b (rloc c) ≠ 0) (q : ℝ × ℝ) : Mean a b c q (rarea b c q / rarea a b (rloc c)) (rarea c a q / rarea a b (rloc c)) (rarea a b q / rarea a b (rloc c)) := by
  have s : rarea a b q + rarea b c q + rarea c a q = rarea a b (rloc c) := by unfold rarea rloc; ring
  have ex : rarea b c q * a.x + rarea c a q * b.x + rarea a b q * c.x = rarea a b (rloc c) * q.1 := by unfold rarea rloc; ring
  have ey : rarea b c q * a.y + rarea c a q * b.y + rarea a b q * c.y = rarea a b (rloc c) * q.2 := by unfold rarea rloc; ring
  generalize rarea a b (rloc c) = D at *
  refine ⟨?_, ?_, ?_⟩
  · field_simp; linarith
  · field_simp; linarith
  · field_simp; linarith

/-- The open triangle by weights. -/
theorem mem_openTri {a b c : Pt} {q : ℝ × ℝ} : q ∈ openTri ⟨a, b, c⟩ ↔ rarea a b (rloc c) ≠ 0 ∧ ∃ l m n, 0 < l ∧ 0 < m ∧ 0 < n ∧ Mean a b c q l m n := by
  constructor
  · rintro ⟨h1, h2, h3⟩
    change 0 < rarea a b (rloc c) * _ at h1 h2 h3
    simp only at h1 h2 h3
    have hD : rarea a b (rloc c) ≠ 0 := by intro h; rw [h, zero_mul] at h1; exact lt_irrefl _ h1
    have p : 0 < rarea a b (rloc c) * rarea a b (rloc c) := mul_self_pos.mpr hD
    have dv : ∀ r : ℝ, 0 < rarea a b (rloc c) * r → 0 < r / rarea a b (rloc c) := fun r hr => by
      rw [show r / rarea a b (rloc c) = rarea a b (rloc c) * r / (rarea a b (rloc c) * rarea a b (rloc c)) by field_simp]
      exact div_pos hr p
    exact ⟨hD, _, _, _, dv _ h2, dv _ h3, dv _ h1, mean_of hD q⟩
  · rintro ⟨hD, l, m, n, hl, hm, hn, M⟩
    obtain ⟨e1, e2, e3⟩ := M.area
    have p : 0 < rarea a b (rloc c) * rarea a b (rloc c) := mul_self_pos.mpr hD
    refine ⟨?_, ?_, ?_⟩
    · change 0 < rarea a b (rloc c) * rarea a b q
      rw [e3, mul_left_comm]; exact mul_pos hn p
    · change 0 < rarea a b (rloc c) * rarea b c q
      rw [e1, mul_left_comm]; exact mul_pos hl p
    · change 0 < rarea a b (rloc c) * rarea c a q
      rw [e2, mul_left_comm]; exact mul_pos hm p

theorem rarea_rot (a b c : Pt) : rarea b c (rloc a) = rarea a b (rloc c) := by unfold rarea rloc; ring

theorem rarea_flip (a b c : Pt) : rarea b a (rloc c) = - rarea a b (rloc c) := by unfold rarea rloc; ring

theorem openTri_rot {a b c : Pt} {q : ℝ × ℝ} : q ∈ openTri ⟨a, b, c⟩ → q ∈ openTri ⟨b, c, a⟩ := by
  rw [mem_openTri, mem_openTri]
  rintro ⟨hD, l, m, n, hl, hm, hn, M⟩
  exact ⟨by rwa [rarea_rot], m, n, l, hm, hn, hl, M.rot⟩

theorem openTri_flip {a b c : Pt} {q : ℝ × ℝ} : q ∈ openTri ⟨a, b, c⟩ → q ∈ openTri ⟨b, a, c⟩ := by
  rw [mem_openTri, mem_openTri]
  rintro ⟨hD, l, m, n, hl, hm, hn, M⟩
  exact ⟨by rw [rarea_flip]; exact neg_ne_zero.mpr hD, m, l, n, hm, hl, hn, M.flip⟩

/-- Height above a location of the triangle whose vertices have the heights `φ`. -/
noncomputable def height (φ : Pt → ℝ) (t : Tri) (q : ℝ × ℝ) : ℝ :=
  (rarea t.b t.c q * φ t.a + rarea t.c t.a q * φ t.b + rarea t.a t.b q * φ t.c) / rarea t.a t.b (rloc t.c)

theorem height_mean {φ : Pt → ℝ} {a b c : Pt} {q : ℝ × ℝ} {l m n : ℝ} (hD : rarea a b (rloc c) ≠ 0) (M : Mean a b c q l m n) : height φ ⟨a, b, c⟩ q = l * φ a + m * φ b + n * φ c := by
  obtain ⟨e1, e2, e3⟩ := M.area
  unfold height
  simp only
  rw [e1, e2, e3]
  field_simp

theorem height_rot {φ : Pt → ℝ} {a b c : Pt} {q : ℝ × ℝ} (hD : rarea a b (rloc c) ≠ 0) : height φ ⟨b, c, a⟩ q = height φ ⟨a, b, c⟩ q := by
  have M := mean_of hD q
  rw [height_mean hD M, height_mean (by rwa [rarea_rot]) M.rot]
  ring

/-- A point inside the circle is lifted below the triangle. -/
theorem lift_below {t : Tri} {v : Pt} (hv : InsideCircle t v) {l m n : ℝ} (M : Mean t.a t.b t.c (rloc v) l m n) : lift v < l * lift t.a + m * lift t.b + n * lift t.c := by
  obtain ⟨o, ⟨h1, h2⟩, hlt⟩ := hv
  have c : ∀ p : Pt, ((d2 o p : ℚ) : ℝ) = lift p - 2 * o.x * p.x - 2 * o.y * p.y + ((o.x : ℝ) ^ 2 + (o.y : ℝ) ^ 2) := by
    intro p
    unfold d2 lift
    push_cast
    ring
  have h1 : ((d2 o t.a : ℚ) : ℝ) = ((d2 o t.b : ℚ) : ℝ) := by rw [h1]
  have h2 : ((d2 o t.a : ℚ) : ℝ) = ((d2 o t.c : ℚ) : ℝ) := by rw [h2]
  have hlt : ((d2 o v : ℚ) : ℝ) < ((d2 o t.a : ℚ) : ℝ) := by exact_mod_cast hlt
  rw [c, c] at h1 h2 hlt
  have hx : (v.x : ℝ) = l * t.a.x + m * t.b.x + n * t.c.x := M.x
  have hy : (v.y : ℝ) = l * t.a.y + m * t.b.y + n * t.c.y := M.y
  have hl : l = 1 - m - n := by have := M.sum; linarith
  have e : l * lift t.a + m * lift t.b + n * lift t.c - 2 * o.x * v.x - 2 * o.y * v.y = lift t.a - 2 * o.x * t.a.x - 2 * o.y * t.a.y := by
    rw [hx, hy, hl]
    linear_combination (-m) * h1 - n * h2
  linarith

/-- A location on no line through two of the points. -/
def Generic (P : List Pt) (q : ℝ × ℝ) : Prop := ∀ a ∈ P, ∀ b ∈ P, a ≠ b → rarea a b q ≠ 0

/-- Replacing a vertex by a point that is lower than the triangle. -/
theorem exchange {φ : Pt → ℝ} {P : List Pt} {a b c v : Pt} (hb : b ∈ P) (hc : c ∈ P) (hv : v ∈ P) (hD : rarea a b (rloc c) ≠ 0) {q : ℝ × ℝ}
    (hg : Generic P q) {l m n : ℝ} (hl : 0 < l) (M : Mean a b c q l m n) {r s t : ℝ} (N : Mean a b c (rloc v) r s t) (hr : 0 < r)
    (h1 : l * s ≤ m * r) (h2 : l * t ≤ n * r) (hlow : φ v < r * φ a + s * φ b + t * φ c) :
    q ∈ openTri ⟨v, b, c⟩ ∧ height φ ⟨v, b, c⟩ q < height φ ⟨a, b, c⟩ q := by
  have D' : rarea v b (rloc c) = r * rarea a b (rloc c) := by
    rw [← rarea_rot, ← N.area.1]
  have hD' : rarea v b (rloc c) ≠ 0 := by rw [D']; exact mul_ne_zero hr.ne' hD
  have K : Mean v b c q (l / r) (m - l / r * s) (n - l / r * t) := by
    have vx : (v.x : ℝ) = r * a.x + s * b.x + t * c.x := N.x
    have vy : (v.y : ℝ) = r * a.y + s * b.y + t * c.y := N.y
    have u : l / r * r = l := by field_simp
    have es : r + s + t = 1 := N.sum
    have em : l + m + n = 1 := M.sum
    refine ⟨?_, ?_, ?_⟩
    · have : l / r * r + l / r * s + l / r * t = l / r := by rw [← mul_add, ← mul_add, es, mul_one]
      linarith
    · rw [M.x, vx]; linear_combination (-(a.x : ℝ)) * u
    · rw [M.y, vy]; linear_combination (-(a.y : ℝ)) * u
  obtain ⟨e1, e2, e3⟩ := K.area
  have ne : ∀ {p p' : Pt}, p = p' → rarea p p' q = 0 := by rintro p _ rfl; unfold rarea; ring
  have bv : v ≠ b := by rintro rfl; apply hD'; unfold rarea; ring
  have cv : c ≠ v := by rintro rfl; apply hD'; unfold rarea rloc; ring
  have g1 := hg c hc v hv cv
  have g2 := hg v hv b hb bv
  rw [e2] at g1
  rw [e3] at g2
  have p1 : 0 ≤ m - l / r * s := by
    rw [sub_nonneg, div_mul_eq_mul_div, div_le_iff₀ hr]; exact h1
  have p2 : 0 ≤ n - l / r * t := by
    rw [sub_nonneg, div_mul_eq_mul_div, div_le_iff₀ hr]; exact h2
  have p1' : 0 < m - l / r * s := lt_of_le_of_ne p1 fun e => g1 (by rw [← e, zero_mul])
  have p2' : 0 < n - l / r * t := lt_of_le_of_ne p2 fun e => g2 (by rw [← e, zero_mul])
  have p0 : 0 < l / r := div_pos hl hr
  refine ⟨mem_openTri.mpr ⟨hD', _, _, _, p0, p1', p2', K⟩, ?_⟩
  rw [height_mean hD' K, height_mean hD M]
  have := mul_lt_mul_of_pos_left hlow p0
  have u : l / r * r = l := by field_simp
  have e : l / r * (r * φ a + s * φ b + t * φ c) = l * φ a + l / r * s * φ b + l / r * t * φ c := by
    linear_combination φ a * u
  rw [e] at this
  linarith

/-- The triangles with vertices among the points. -/
def allTris (P : List Pt) : List Tri := P.flatMap fun a => P.flatMap fun b => P.map fun c => ⟨a, b, c⟩

theorem mem_allTris {P : List Pt} {t : Tri} : t ∈ allTris P ↔ t.a ∈ P ∧ t.b ∈ P ∧ t.c ∈ P := by
  unfold allTris
  simp only [List.mem_flatMap, List.mem_map]
  constructor
  · rintro ⟨a, ha, b, hb, c, hc, rfl⟩
    exact ⟨ha, hb, hc⟩
  · rintro ⟨ha, hb, hc⟩
    exact ⟨_, ha, _, hb, _, hc, rfl⟩

theorem list_min {α : Type} (f : α → ℝ) : ∀ {l : List α}, l ≠ [] → ∃ x ∈ l, ∀ y ∈ l, f x ≤ f y
  | [x], _ => ⟨x, by simp, by simp⟩
  | x :: y :: l, _ => by
    obtain ⟨z, hz, hm⟩ := list_min f (l := y :: l) (by simp)
    rcases le_total (f x) (f z) with h | h
    · refine ⟨x, by simp, fun u hu => ?_⟩
      rcases List.mem_cons.mp hu with rfl | hu
      exacts [le_rfl, h.trans (hm u hu)]
    · refine ⟨z, List.mem_cons_of_mem _ hz, fun u hu => ?_⟩
      rcases List.mem_cons.mp hu with rfl | hu
      exacts [h, hm u hu]

/-- Around a location that is in some triangle of the points and on no line through two of them there is a triangle of the points with no point lower than its plane. -/
theorem exists_lowest (φ : Pt → ℝ) {P : List Pt} {q : ℝ × ℝ} (hg : Generic P q) {t0 : Tri} (h0 : t0 ∈ allTris P) (hq : q ∈ openTri t0) :
    ∃ t ∈ allTris P, q ∈ openTri t ∧ ∀ v ∈ P, height φ t (rloc v) ≤ φ v := by
  classical
  obtain ⟨t, ht, hmin⟩ := list_min (fun t => height φ t q) (l := (allTris P).filter fun t => q ∈ openTri t) (by
    intro h
    have : t0 ∈ (allTris P).filter fun t => q ∈ openTri t := List.mem_filter.mpr ⟨h0, by simpa using hq⟩
    rw [h] at this
    simp at this)
  obtain ⟨ht, hqt⟩ := List.mem_filter.mp ht
  have hqt : q ∈ openTri t := by simpa using hqt
  refine ⟨t, ht, hqt, fun v hv => not_lt.mp fun low => ?_⟩
  obtain ⟨a, b, c⟩ := t
  obtain ⟨ha, hb, hc⟩ := mem_allTris.mp ht
  obtain ⟨hD, l, m, n, hl, hm, hn, M⟩ := mem_openTri.mp hqt
  have N := mean_of hD (rloc v)
  rw [height_mean hD N] at low
  generalize rarea b c (rloc v) / rarea a b (rloc c) = r at *
  generalize rarea c a (rloc v) / rarea a b (rloc c) = s at *
  generalize rarea a b (rloc v) / rarea a b (rloc c) = u at *
  simp only at low ha hb hc
  have done : ∀ {t' : Tri}, t' ∈ allTris P → q ∈ openTri t' → height φ t' q < height φ ⟨a, b, c⟩ q → False := by
    intro t' h1 h2 h3
    exact absurd (hmin t' (List.mem_filter.mpr ⟨h1, by simpa using h2⟩)) (not_le.mpr h3)
  have caseA : 0 < r → l * s ≤ m * r → l * u ≤ n * r → False := fun h1 h2 h3 => by
    obtain ⟨k1, k2⟩ := exchange hb hc hv hD hg hl M N h1 h2 h3 low
    exact done (mem_allTris.mpr ⟨hv, hb, hc⟩) k1 k2
  have caseB : 0 < s → m * u ≤ n * s → m * r ≤ l * s → False := fun h1 h2 h3 => by
    obtain ⟨k1, k2⟩ := exchange (a := b) (b := c) (c := a) hc ha hv (by rwa [rarea_rot]) hg hm M.rot N.rot h1 h2 h3 (by linarith)
    rw [height_rot hD] at k2
    exact done (mem_allTris.mpr ⟨hv, hc, ha⟩) k1 k2
  have caseC : 0 < u → n * r ≤ l * u → n * s ≤ m * u → False := fun h1 h2 h3 => by
    obtain ⟨k1, k2⟩ := exchange (a := c) (b := a) (c := b) ha hb hv (by rwa [rarea_rot, rarea_rot]) hg hn M.rot.rot N.rot.rot h1 h2 h3 (by linarith)
    rw [← height_rot (a := c) (b := a) (c := b) (by rwa [rarea_rot, rarea_rot])] at k2
    exact done (mem_allTris.mpr ⟨hv, ha, hb⟩) k1 k2
  have sum : r + s + u = 1 := N.sum
  -- the largest ratio of the weights of `v` and of `q`
  have tr : ∀ {x y z x' y' z' : ℝ}, 0 < x → 0 < y → 0 < z → x * y' ≤ y * x' → y * z' ≤ z * y' → x * z' ≤ z * x' := by
    intro x y z x' y' z' hx hy hz h1 h2
    have k1 := mul_le_mul_of_nonneg_left h1 hz.le
    have k2 := mul_le_mul_of_nonneg_left h2 hx.le
    have : y * (x * z') ≤ y * (z * x') := by linarith
    exact le_of_mul_le_mul_left this hy
  have pos : ∀ {x y z x' y' z' : ℝ}, 0 < x → 0 < y → 0 < z → x' + y' + z' = 1 → x * y' ≤ y * x' → x * z' ≤ z * x' → 0 < x' := by
    intro x y z x' y' z' hx hy hz h0 h1 h2
    by_contra hn
    have hn := not_lt.mp hn
    have k1 : y' ≤ 0 := by
      by_contra hc
      have := mul_pos hx (not_le.mp hc)
      have := mul_nonpos_of_nonneg_of_nonpos hy.le hn
      linarith
    have k2 : z' ≤ 0 := by
      by_contra hc
      have := mul_pos hx (not_le.mp hc)
      have := mul_nonpos_of_nonneg_of_nonpos hz.le hn
      linarith
    linarith
  rcases le_total (l * s) (m * r) with h1 | h1
  · rcases le_total (l * u) (n * r) with h2 | h2
    · exact caseA (pos hl hm hn sum h1 h2) h1 h2
    · have h3 : n * s ≤ m * u := tr hn hl hm h2 h1
      exact caseC (pos (x' := u) (y' := r) (z' := s) hn hl hm (by linarith) h2 h3) h2 h3
  · rcases le_total (m * u) (n * s) with h2 | h2
    · exact caseB (pos (x' := s) (y' := u) (z' := r) hm hn hl (by linarith) h2 h1) h2 h1
    · have h3 : n * r ≤ l * u := tr hn hm hl h2 h1
      exact caseC (pos (x' := u) (y' := r) (z' := s) hn hl hm (by linarith) h3 h2) h3 h2

/-- The same for the paraboloid: the circle of the triangle has no point inside. -/
theorem exists_delaunay {P : List Pt} {q : ℝ × ℝ} (hg : Generic P q) {t0 : Tri} (h0 : t0 ∈ allTris P) (hq : q ∈ openTri t0) :
    ∃ t ∈ allTris P, q ∈ openTri t ∧ ∀ v ∈ P, ¬ InsideCircle t v := by
  obtain ⟨t, ht, hqt, low⟩ := exists_lowest lift hg h0 hq
  refine ⟨t, ht, hqt, fun v hv hin => ?_⟩
  obtain ⟨a, b, c⟩ := t
  have hD := (mem_openTri.mp hqt).1
  have N := mean_of hD (rloc v)
  have := low v hv
  rw [height_mean hD N] at this
  exact absurd (lift_below hin N) (not_lt.mpr this)

/-- A location of the convex hull on no line through two of the points is in a triangle of the points. -/
theorem hull_tri {P : List Pt} {q : ℝ × ℝ} (hg : Generic P q) (hp : ∀ p ∈ P, q ≠ rloc p) (hq : q ∈ convexHull ℝ (rloc '' {p | p ∈ P})) : ∃ t ∈ allTris P, q ∈ openTri t := by
  obtain ⟨ι, _, z, w, hz, ai, pos, sum, mean⟩ := eq_pos_convex_span_of_mem_convexHull hq
  have card : Fintype.card ι ≤ 3 := by
    have := ai.card_le_finrank_succ
    have f : Module.finrank ℝ (vectorSpan ℝ (Set.range z)) ≤ Module.finrank ℝ (ℝ × ℝ) := Submodule.finrank_le _
    have : Module.finrank ℝ (ℝ × ℝ) = 2 := by simp
    omega
  choose p hp' hpz using fun i => (hz ⟨i, rfl⟩ : z i ∈ rloc '' {p | p ∈ P})
  have hinj : ∀ i j, p i = p j → i = j := fun i j h => ai.injective (by rw [← hpz, ← hpz, h])
  obtain ⟨k, hk⟩ : ∃ k, Fintype.card ι = k := ⟨_, rfl⟩
  let e := (Fintype.equivFinOfCardEq hk).symm
  have sum' : ∑ i, w (e i) = 1 := by rw [← sum]; exact e.sum_comp w
  have mean' : ∑ i, w (e i) • rloc (p (e i)) = q := by
    rw [← mean, ← e.sum_comp fun i => w i • z i]
    exact Finset.sum_congr rfl fun i _ => by rw [hpz]
  have ne : ∀ i j, i ≠ j → p (e i) ≠ p (e j) := fun i j h h' => h (e.injective (hinj _ _ h'))
  rw [hk] at card
  match k, card, e, sum', mean', ne with
  | 0, _, e, sum', mean', ne => simp at sum'
  | 1, _, e, sum', mean', ne =>
    rw [Fin.sum_univ_one] at sum' mean'
    rw [sum', one_smul] at mean'
    exact absurd mean'.symm (hp _ (hp' _))
  | 2, _, e, sum', mean', ne =>
    rw [Fin.sum_univ_two] at sum' mean'
    refine absurd ?_ (hg _ (hp' (e 0)) _ (hp' (e 1)) (ne 0 1 (by decide)))
    rw [← mean']
    have : w (e 0) = 1 - w (e 1) := by linarith
    unfold rarea rloc
    simp only [Prod.smul_mk, Prod.mk_add_mk, smul_eq_mul]
    rw [this]
    ring
  | 3, _, e, sum', mean', ne =>
    rw [Fin.sum_univ_three] at sum' mean'
    have M : Mean (p (e 0)) (p (e 1)) (p (e 2)) q (w (e 0)) (w (e 1)) (w (e 2)) := by
      refine ⟨sum', ?_, ?_⟩
      · rw [← mean']; simp [rloc]
      · rw [← mean']; simp [rloc]
    refine ⟨⟨p (e 0), p (e 1), p (e 2)⟩, mem_allTris.mpr ⟨hp' _, hp' _, hp' _⟩, mem_openTri.mpr ⟨fun h => ?_, _, _, _, pos _, pos _, pos _, M⟩⟩
    have := hg _ (hp' (e 0)) _ (hp' (e 1)) (ne 0 1 (by decide))
    rw [M.area.2.2, h, mul_zero] at this
    exact this rfl
  | k + 4, card, _, _, _, _ => omega

theorem openTri_hull {P : List Pt} {t : Tri} (ht : t ∈ allTris P) : openTri t ⊆ convexHull ℝ (rloc '' {p | p ∈ P}) := by
  intro q hq
  obtain ⟨a, b, c⟩ := t
  obtain ⟨ha, hb, hc⟩ := mem_allTris.mp ht
  obtain ⟨-, l, m, n, hl, hm, hn, M⟩ := mem_openTri.mp hq
  have hs : ∀ p ∈ P, rloc p ∈ convexHull ℝ (rloc '' {p | p ∈ P}) := fun p hp => subset_convexHull ℝ _ ⟨p, hp, rfl⟩
  have c1 := convex_convexHull ℝ (rloc '' {p | p ∈ P})
  have e : q = l • rloc a + m • rloc b + n • rloc c := by
    refine Prod.ext ?_ ?_
    · rw [M.x]; simp [rloc]
    · rw [M.y]; simp [rloc]
  rw [e]
  have := c1.sum_mem (t := Finset.univ) (w := ![l, m, n]) (z := ![rloc a, rloc b, rloc c]) (by
    intro i _; fin_cases i <;> simp [hl.le, hm.le, hn.le]) (by
    simp [Fin.sum_univ_three]; exact M.sum) (by
    intro i _; fin_cases i <;> simp <;> [exact hs a ha; exact hs b hb; exact hs c hc])
  simpa [Fin.sum_univ_three] using this

/-- Lines have no area. -/
theorem line_null {a b : Pt} (h : a ≠ b) : volume {q : ℝ × ℝ | rarea a b q = 0} = 0 := by
  let f : (ℝ × ℝ) →ₗ[ℝ] ℝ := ((b.x : ℝ) - a.x) • LinearMap.snd ℝ ℝ ℝ - ((b.y : ℝ) - a.y) • LinearMap.fst ℝ ℝ ℝ
  have hf : ∀ q, f q = ((b.x : ℝ) - a.x) * q.2 - ((b.y : ℝ) - a.y) * q.1 := fun q => by simp [f]
  have h0 := Measure.addHaar_submodule (volume : Measure (ℝ × ℝ)) (LinearMap.ker f) (by
    intro hk
    have k : ∀ q, f q = 0 := fun q => by
      have : q ∈ LinearMap.ker f := by rw [hk]; trivial
      simpa using this
    have k1 := k (1, 0)
    have k2 := k (0, 1)
    rw [hf] at k1 k2
    simp at k1 k2
    apply h
    have x : (b.x : ℝ) = a.x := by linarith
    have y : (b.y : ℝ) = a.y := by linarith
    have x : b.x = a.x := by exact_mod_cast x
    have y : b.y = a.y := by exact_mod_cast y
    cases a; cases b; simp_all)
  have e : {q : ℝ × ℝ | rarea a b q = 0} = (fun q => q + (-rloc a)) ⁻¹' (LinearMap.ker f : Set (ℝ × ℝ)) := by
    ext q
    simp only [Set.mem_ofPred_eq, Set.mem_preimage, SetLike.mem_coe, LinearMap.mem_ker, hf]
    unfold rarea rloc
    simp only [Prod.fst_add, Prod.snd_add, Prod.fst_neg, Prod.snd_neg]
    constructor <;> intro hh <;> linarith
  rw [e, measure_preimage_add_right, h0]

/-- Almost every location is on no line through two of the points, and is none of them. -/
theorem generic_ae (P : List Pt) : ∀ᵐ q ∂(volume : Measure (ℝ × ℝ)), Generic P q ∧ ∀ p ∈ P, q ≠ rloc p := by
  have h1 : ∀ᵐ q ∂(volume : Measure (ℝ × ℝ)), ∀ a ∈ P, ∀ b ∈ P, a ≠ b → rarea a b q ≠ 0 := by
    have : ∀ ab : Pt × Pt, ab ∈ (P.flatMap fun a => P.map fun b => (a, b)).toFinset → ∀ᵐ q ∂(volume : Measure (ℝ × ℝ)), ab.1 ≠ ab.2 → rarea ab.1 ab.2 q ≠ 0 := by
      intro ab _
      by_cases h : ab.1 = ab.2
      · exact Filter.Eventually.of_forall fun q hq => absurd h hq
      · have := line_null h
        rw [← compl_compl {q : ℝ × ℝ | rarea ab.1 ab.2 q = 0}] at this
        filter_upwards [mem_ae_iff.mpr this] with q hq _ using hq
    have := (Filter.eventually_all_finset _).mpr this
    filter_upwards [this] with q hq a ha b hb
    exact hq (a, b) (by simp [ha, hb])
  have h2 : ∀ᵐ q ∂(volume : Measure (ℝ × ℝ)), ∀ p ∈ P, q ≠ rloc p := by
    have : ∀ p ∈ P.toFinset, ∀ᵐ q ∂(volume : Measure (ℝ × ℝ)), q ≠ rloc p := by
      intro p _
      rw [ae_iff]
      simp
    have := (Filter.eventually_all_finset _).mpr this
    filter_upwards [this] with q hq p hp
    exact hq p (by simpa using hp)
  filter_upwards [h1, h2] with q a b
  exact ⟨a, b⟩

/-! ### Areas -/

theorem std_volume_le : volume std ≤ ENNReal.ofReal (1 / 2) := by
  have sq : volume (Set.Ioo (0 : ℝ) 1 ×ˢ Set.Ioo (0 : ℝ) 1) = 1 := by
    rw [Measure.volume_eq_prod, Measure.prod_prod, Real.volume_Ioo]
    simp
  have open_ : IsOpen std :=
    (isOpen_lt continuous_const continuous_fst).inter ((isOpen_lt continuous_const continuous_snd).inter (isOpen_lt (continuous_fst.add continuous_snd) continuous_const))
  have sub : std ∪ (fun p => ((1, 1) : ℝ × ℝ) - p) ⁻¹' std ⊆ Set.Ioo (0 : ℝ) 1 ×ˢ Set.Ioo (0 : ℝ) 1 := by
    rintro ⟨x, y⟩ (⟨h1, h2, h3⟩ | ⟨h1, h2, h3⟩)
    · simp only at h1 h2 h3
      exact ⟨⟨h1, by simp only; linarith⟩, h2, by simp only; linarith⟩
    · simp only [Prod.mk_sub_mk] at h1 h2 h3
      exact ⟨⟨by simp only; linarith, by simp only; linarith⟩, by simp only; linarith, by simp only; linarith⟩
  have dis : Disjoint std ((fun p => ((1, 1) : ℝ × ℝ) - p) ⁻¹' std) := by
    rw [Set.disjoint_left]
    rintro ⟨x, y⟩ ⟨h1, h2, h3⟩ ⟨h4, h5, h6⟩
    simp only [Prod.mk_sub_mk] at h1 h2 h3 h4 h5 h6
    linarith
  have r : volume ((fun p => ((1, 1) : ℝ × ℝ) - p) ⁻¹' std) = volume std :=
    (Measure.measurePreserving_sub_left (volume : Measure (ℝ × ℝ)) ((1, 1) : ℝ × ℝ)).measure_preimage open_.measurableSet.nullMeasurableSet
  have h := measure_mono (μ := volume) sub
  rw [measure_union dis (open_.preimage (by fun_prop)).measurableSet, r, sq, ← two_mul] at h
  have : ENNReal.ofReal (1 / 2) = 1 / 2 := by
    rw [ENNReal.ofReal_div_of_pos (by norm_num)]; simp
  rw [this, ENNReal.le_div_iff_mul_le (by simp) (by simp), mul_comm]
  exact h

theorem openTri_volume_le (t : Tri) : volume (openTri t) ≤ ENNReal.ofReal (|rarea t.a t.b (rloc t.c)| / 2) := by
  obtain ⟨a, b, c⟩ := t
  simp only
  let M : (ℝ × ℝ) →ₗ[ℝ] (ℝ × ℝ) := Matrix.toLin (Module.Basis.finTwoProd ℝ) (Module.Basis.finTwoProd ℝ)
    !![(b.x : ℝ) - a.x, (c.x : ℝ) - a.x; (b.y : ℝ) - a.y, (c.y : ℝ) - a.y]
  have dM : LinearMap.det M = rarea a b (rloc c) := by
    rw [LinearMap.det_toLin, Matrix.det_fin_two_of]
    unfold rarea rloc
    simp only
    ring
  have v := Measure.addHaar_image_linearMap (volume : Measure (ℝ × ℝ)) M std
  rw [dM] at v
  have sub : (fun p => p + rloc a) ⁻¹' openTri ⟨a, b, c⟩ ⊆ M '' std := by
    intro p hp
    obtain ⟨-, l, m, n, hl, hm, hn, K⟩ := mem_openTri.mp hp
    have hs : l = 1 - m - n := by have := K.sum; linarith
    refine ⟨(m, n), ⟨hm, hn, by simp only; linarith⟩, ?_⟩
    have e : M (m, n) = (((b.x : ℝ) - a.x) * m + ((c.x : ℝ) - a.x) * n, ((b.y : ℝ) - a.y) * m + ((c.y : ℝ) - a.y) * n) :=
      Matrix.toLin_finTwoProd_apply _ _ _ _ _
    rw [e]
    have kx := K.x
    have ky := K.y
    simp only [rloc, Prod.fst_add, Prod.snd_add] at kx ky
    rw [hs] at kx ky
    refine Prod.ext ?_ ?_
    · simp only; linarith
    · simp only; linarith
  have := measure_mono (μ := volume) sub
  rw [measure_preimage_add_right, v] at this
  refine this.trans ?_
  rw [div_eq_mul_one_div |rarea a b (rloc c)|, ENNReal.ofReal_mul (abs_nonneg _)]
  exact mul_le_mul_right std_volume_le _

/-! ### Signs near zero -/

/-- A polynomial of degree two has one sign near zero, or is zero. -/
theorem sign_near (A B C : ℝ) : (∀ᶠ e in nhdsWithin (0 : ℝ) (Set.Ioi 0), 0 < A + B * e + C * e ^ 2) ∨ (∀ᶠ e in nhdsWithin (0 : ℝ) (Set.Ioi 0), A + B * e + C * e ^ 2 < 0) ∨
    (A = 0 ∧ B = 0 ∧ C = 0) := by
  have pos : ∀ A B C : ℝ, 0 < A → ∀ᶠ e in nhdsWithin (0 : ℝ) (Set.Ioi 0), 0 < A + B * e + C * e ^ 2 := by
    intro A B C hA
    have t : Filter.Tendsto (fun e : ℝ => A + B * e + C * e ^ 2) (nhds 0) (nhds (A + B * 0 + C * 0 ^ 2)) := by
      apply Continuous.tendsto
      fun_prop
    have : 0 < A + B * 0 + C * 0 ^ 2 := by simpa using hA
    exact (t.eventually (lt_mem_nhds this)).filter_mono nhdsWithin_le_nhds
  have gt : ∀ᶠ e in nhdsWithin (0 : ℝ) (Set.Ioi 0), (0 : ℝ) < e := self_mem_nhdsWithin
  have all : ∀ A B C : ℝ, 0 < A ∨ (A = 0 ∧ 0 < B) ∨ (A = 0 ∧ B = 0 ∧ 0 < C) → ∀ᶠ e in nhdsWithin (0 : ℝ) (Set.Ioi 0), 0 < A + B * e + C * e ^ 2 := by
    rintro A B C (h | ⟨rfl, h⟩ | ⟨rfl, rfl, h⟩)
    · exact pos A B C h
    · filter_upwards [pos B C 0 h, gt] with e h1 h2
      have := mul_pos h2 h1
      nlinarith
    · filter_upwards [gt] with e h2
      have := mul_pos h (pow_pos h2 2)
      linarith
  rcases lt_trichotomy A 0 with h | h | h
  · refine Or.inr (Or.inl ((all (-A) (-B) (-C) (Or.inl (by linarith))).mono fun e he => by linarith))
  · rcases lt_trichotomy B 0 with h' | h' | h'
    · refine Or.inr (Or.inl ((all (-A) (-B) (-C) (Or.inr (Or.inl ⟨by linarith, by linarith⟩))).mono fun e he => by linarith))
    · rcases lt_trichotomy C 0 with h'' | h'' | h''
      · refine Or.inr (Or.inl ((all (-A) (-B) (-C) (Or.inr (Or.inr ⟨by linarith, by linarith, by linarith⟩))).mono fun e he => by linarith))
      · exact Or.inr (Or.inr ⟨h, h', h''⟩)
      · exact Or.inl (all A B C (Or.inr (Or.inr ⟨h, h', h''⟩)))
    · exact Or.inl (all A B C (Or.inr (Or.inl ⟨h, h'⟩)))
  · exact Or.inl (all A B C (Or.inl h))

/-- A location next to another one. -/
def near (c : ℝ × ℝ) (s e : ℝ) : ℝ × ℝ := (c.1 - s * e, c.2 + s * e ^ 2)

theorem rarea_near (a b : Pt) (c : ℝ × ℝ) (s e : ℝ) : rarea a b (near c s e) = rarea a b c + s * (b.y - a.y) * e + s * (b.x - a.x) * e ^ 2 := by
  unfold rarea near
  ring

/-- Next to a location all locations in the direction are on no line. -/
theorem near_generic (P : List Pt) (c : ℝ × ℝ) {s : ℝ} (hs : s ≠ 0) : ∀ᶠ e in nhdsWithin (0 : ℝ) (Set.Ioi 0), Generic P (near c s e) ∧ ∀ p ∈ P, near c s e ≠ rloc p := by
  have h1 : ∀ᶠ e in nhdsWithin (0 : ℝ) (Set.Ioi 0), ∀ ab ∈ (P.flatMap fun a => P.map fun b => (a, b)).toFinset, ab.1 ≠ ab.2 → rarea ab.1 ab.2 (near c s e) ≠ 0 := by
    refine (Filter.eventually_all_finset _).mpr fun ab _ => ?_
    rcases sign_near (rarea ab.1 ab.2 c) (s * (ab.2.y - ab.1.y)) (s * (ab.2.x - ab.1.x)) with h | h | ⟨-, h, h'⟩
    · filter_upwards [h] with e he _
      rw [rarea_near]; exact he.ne'
    · filter_upwards [h] with e he _
      rw [rarea_near]; exact he.ne
    · refine Filter.Eventually.of_forall fun e hne => absurd ?_ hne
      have y := (mul_eq_zero.mp h).resolve_left hs
      have x := (mul_eq_zero.mp h').resolve_left hs
      have x : (ab.2.x : ℝ) = ab.1.x := by linarith
      have y : (ab.2.y : ℝ) = ab.1.y := by linarith
      have x : ab.2.x = ab.1.x := by exact_mod_cast x
      have y : ab.2.y = ab.1.y := by exact_mod_cast y
      obtain ⟨⟨_, _⟩, ⟨_, _⟩⟩ := ab
      simp_all
  have h2 : ∀ᶠ e in nhdsWithin (0 : ℝ) (Set.Ioi 0), ∀ p ∈ P.toFinset, near c s e ≠ rloc p := by
    refine (Filter.eventually_all_finset _).mpr fun p _ => ?_
    have ne : ∀ {e : ℝ}, c.1 - p.x + (-s) * e + 0 * e ^ 2 ≠ 0 → near c s e ≠ rloc p := by
      intro e h k
      apply h
      have := congrArg Prod.fst k
      simp only [near, rloc] at this
      linarith
    rcases sign_near (c.1 - p.x) (-s) 0 with h | h | ⟨-, h, -⟩
    · exact h.mono fun e he => ne he.ne'
    · exact h.mono fun e he => ne he.ne
    · exact absurd (neg_eq_zero.mp h) hs
  filter_upwards [h1, h2] with e k1 k2
  exact ⟨fun a ha b hb => k1 (a, b) (by simp [ha, hb]), fun p hp => k2 p (by simpa using hp)⟩

/-- Next to a location all locations in the direction are in the open triangle, or none. -/
theorem near_tri (t : Tri) (c : ℝ × ℝ) (s : ℝ) : (∀ᶠ e in nhdsWithin (0 : ℝ) (Set.Ioi 0), near c s e ∈ openTri t) ∨ ∀ᶠ e in nhdsWithin (0 : ℝ) (Set.Ioi 0), near c s e ∉ openTri t := by
  have one : ∀ a b : Pt, (∀ᶠ e in nhdsWithin (0 : ℝ) (Set.Ioi 0), 0 < rarea t.a t.b (t.c.x, t.c.y) * rarea a b (near c s e)) ∨
      ∀ᶠ e in nhdsWithin (0 : ℝ) (Set.Ioi 0), ¬ 0 < rarea t.a t.b (t.c.x, t.c.y) * rarea a b (near c s e) := by
    intro a b
    generalize rarea t.a t.b (t.c.x, t.c.y) = D
    have ex : ∀ e, D * rarea a b (near c s e) = D * rarea a b c + D * (s * (b.y - a.y)) * e + D * (s * (b.x - a.x)) * e ^ 2 := fun e => by rw [rarea_near]; ring
    rcases sign_near (D * rarea a b c) (D * (s * (b.y - a.y))) (D * (s * (b.x - a.x))) with h | h | ⟨h1, h2, h3⟩
    · exact Or.inl (h.mono fun e he => by rw [ex]; exact he)
    · exact Or.inr (h.mono fun e he => by rw [ex]; exact not_lt.mpr he.le)
    · exact Or.inr (Filter.Eventually.of_forall fun e => by rw [ex, h1, h2, h3]; simp)
  rcases one t.a t.b with h1 | h1
  · rcases one t.b t.c with h2 | h2
    · rcases one t.c t.a with h3 | h3
      · left
        filter_upwards [h1, h2, h3] with e k1 k2 k3
        exact ⟨k1, k2, k3⟩
      · exact Or.inr (h3.mono fun e he k => he k.2.2)
    · exact Or.inr (h2.mono fun e he k => he k.2.1)
  · exact Or.inr (h1.mono fun e he k => he k.1)

/-- If triangles cover the generic locations of a set, one of them has all locations next to a location in the interior. -/
theorem near_one {P : List Pt} {S : Set (ℝ × ℝ)} {T : List Tri} (cover : ∀ q ∈ S, Generic P q → (∀ p ∈ P, q ≠ rloc p) → ∃ t ∈ T, q ∈ openTri t) {c : ℝ × ℝ} (hc : c ∈ interior S)
    {s : ℝ} (hs : s ≠ 0) : ∃ t ∈ T, ∀ᶠ e in nhdsWithin (0 : ℝ) (Set.Ioi 0), near c s e ∈ openTri t := by
  classical
  have ins : ∀ᶠ e in nhdsWithin (0 : ℝ) (Set.Ioi 0), near c s e ∈ S := by
    have t : Filter.Tendsto (near c s) (nhds 0) (nhds (near c s 0)) := by
      apply Continuous.tendsto
      unfold near
      fun_prop
    have z : near c s 0 = c := by unfold near; simp
    rw [z] at t
    exact (t.eventually (mem_interior_iff_mem_nhds.mp hc)).filter_mono nhdsWithin_le_nhds
  have ex : ∀ᶠ e in nhdsWithin (0 : ℝ) (Set.Ioi 0), ∃ t ∈ T, near c s e ∈ openTri t := by
    filter_upwards [ins, near_generic P c hs] with e h1 h2
    exact cover _ h1 h2.1 h2.2
  by_contra hn
  have no : ∀ᶠ e in nhdsWithin (0 : ℝ) (Set.Ioi 0), ∀ t ∈ T.toFinset, near c s e ∉ openTri t := by
    refine (Filter.eventually_all_finset _).mpr fun t ht => ?_
    exact (near_tri t c s).resolve_left fun h => hn ⟨t, by simpa using ht, h⟩
  obtain ⟨e, h1, h2⟩ := (ex.and no).exists
  obtain ⟨t, ht, hq⟩ := h1
  exact h2 t (by simpa using ht) hq

end Verif.Spec

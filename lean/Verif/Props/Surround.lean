import Verif.Props.Cover
import Verif.Props.Exported
import Mathlib.Analysis.Real.Sqrt

/-! # C100: locations surrounded by stored points are covered -/

namespace Verif.Props

open Verif.Tri Verif.Spec Verif.Float Verif.Raster Verif.Small Verif.Fit Verif.Alg
open Verif.Incr hiding Entry

/-- In every direction from `q` there is a stored point that lies at least `δ` ahead and at most `ρ` away: the convex hull of the stored points in the disc of
radius `ρ` about `q` contains the disc of radius `δ`. -/
def Surrounded (s : Multiset Pt) (q : P2) (ρ δ : ℚ) : Prop :=
  ∀ a b : ℚ, ∃ p ∈ s, ((p.x : ℚ) - q.x) ^ 2 + (p.y - q.y) ^ 2 ≤ ρ ^ 2 ∧ 0 ≤ a * (p.x - q.x) + b * (p.y - q.y) ∧
    δ ^ 2 * (a ^ 2 + b ^ 2) ≤ (a * (p.x - q.x) + b * (p.y - q.y)) ^ 2

variable {g : Geo} {fl : ℚ → ℚ} {w h : Nat} {ops : List Op} {s : Multiset Pt} {m : Nat} {d : D}

/-- A circle about `o` that reaches `q` and a far point `v` contains a point near `q` in the direction of `o`. -/
theorem disc_reaches {ox oy qx qy vx vy px py R E ρ δ : ℝ} (hδ : 0 < δ) (hδE : δ ≤ E) (hE : ρ ^ 2 < E * δ)
    (hq : (ox - qx) ^ 2 + (oy - qy) ^ 2 ≤ R) (hv : (vx - ox) ^ 2 + (vy - oy) ^ 2 ≤ R) (far : E ^ 2 ≤ (vx - qx) ^ 2 + (vy - qy) ^ 2)
    (hp : (px - qx) ^ 2 + (py - qy) ^ 2 ≤ ρ ^ 2) (hs : 0 ≤ (ox - qx) * (px - qx) + (oy - qy) * (py - qy))
    (hd : δ ^ 2 * ((ox - qx) ^ 2 + (oy - qy) ^ 2) ≤ ((ox - qx) * (px - qx) + (oy - qy) * (py - qy)) ^ 2) :
    (px - ox) ^ 2 + (py - oy) ^ 2 < R := by
  have hR : 0 ≤ R := (add_nonneg (sq_nonneg _) (sq_nonneg _)).trans hq
  obtain ⟨a, ha, ea⟩ : ∃ a : ℝ, 0 ≤ a ∧ a ^ 2 = (ox - qx) ^ 2 + (oy - qy) ^ 2 := ⟨_, Real.sqrt_nonneg _, Real.sq_sqrt (by positivity)⟩
  obtain ⟨r, hr, er⟩ : ∃ r : ℝ, 0 ≤ r ∧ r ^ 2 = R := ⟨_, Real.sqrt_nonneg _, Real.sq_sqrt hR⟩
  have har : a ≤ r := abs_le_of_sq_le_sq' (by rw [ea, er]; exact hq) hr |>.2
  have hP : δ * a ≤ (ox - qx) * (px - qx) + (oy - qy) * (py - qy) := by
    refine (abs_le_of_sq_le_sq' ?_ hs).2
    rw [mul_pow, ea]; exact hd
  have hS : E ≤ r + a := by
    by_contra hlt
    rw [not_le] at hlt
    have cs : (vx - ox) * (ox - qx) + (vy - oy) * (oy - qy) ≤ r * a := by
      refine (abs_le_of_sq_le_sq' ?_ (mul_nonneg hr ha)).2
      have c1 : ((vx - ox) * (ox - qx) + (vy - oy) * (oy - qy)) ^ 2 ≤ ((vx - ox) ^ 2 + (vy - oy) ^ 2) * ((ox - qx) ^ 2 + (oy - qy) ^ 2) := by
        nlinarith [sq_nonneg ((vx - ox) * (oy - qy) - (vy - oy) * (ox - qx))]
      have c2 := mul_le_mul_of_nonneg_right hv (sq_nonneg a)
      rw [ea] at c2
      rw [mul_pow, er, ea]
      exact c1.trans c2
    have c3 : (vx - qx) ^ 2 + (vy - qy) ^ 2 =
        ((vx - ox) ^ 2 + (vy - oy) ^ 2) + 2 * ((vx - ox) * (ox - qx) + (vy - oy) * (oy - qy)) + ((ox - qx) ^ 2 + (oy - qy) ^ 2) := by ring
    have c4 : (r + a) ^ 2 < E ^ 2 := pow_lt_pow_left₀ hlt (add_nonneg hr ha) (by norm_num)
    have c5 : (r + a) ^ 2 = r ^ 2 + 2 * (r * a) + a ^ 2 := by ring
    linarith
  have e1 : (px - ox) ^ 2 + (py - oy) ^ 2 ≤ a ^ 2 - 2 * (δ * a) + ρ ^ 2 := by
    have c6 : (px - ox) ^ 2 + (py - oy) ^ 2 =
        ((ox - qx) ^ 2 + (oy - qy) ^ 2) - 2 * ((ox - qx) * (px - qx) + (oy - qy) * (py - qy)) + ((px - qx) ^ 2 + (py - qy) ^ 2) := by ring
    linarith
  rw [← er]
  rcases le_total (E / 2) a with hc | hc
  · linarith [mul_le_mul_of_nonneg_left hc hδ.le, pow_le_pow_left₀ ha har 2]
  · have f1 : (E - 2 * a) * E ≤ (r - a) * (r + a) := mul_le_mul (by linarith) hS (by linarith) (by linarith)
    have f2 : δ * (E - 2 * a) ≤ E * (E - 2 * a) := mul_le_mul_of_nonneg_right hδE (by linarith)
    linarith

/-- The vertices of the bounding triangle are at least `(3 n - 1) / 2` away from the image. -/
theorem vertex_far (k : SizeOk w h) {v : Pt} (hv : IsVertex (newSuperTriangle w h) v) {q : P2} (x1 : 0 ≤ q.x) (x2 : q.x ≤ w) (y2 : q.y ≤ h) :
    ((3 * (side w h : ℚ) - 1) / 2) ^ 2 ≤ (v.x - q.x) ^ 2 + (v.y - q.y) ^ 2 := by
  obtain ⟨s2, -, sw, sh, -⟩ := side_bounds k
  rw [super_eq k] at hv
  have ew : (w : ℚ) ≤ 2 * (((w + 1) / 2 : Nat) : ℚ) ∧ 2 * (((w + 1) / 2 : Nat) : ℚ) ≤ w + 1 := by
    constructor <;> exact_mod_cast (by omega)
  have eh : (h : ℚ) ≤ 2 * (((h + 1) / 2 : Nat) : ℚ) ∧ 2 * (((h + 1) / 2 : Nat) : ℚ) ≤ h + 1 := by
    constructor <;> exact_mod_cast (by omega)
  have s2' : (2 : ℚ) ≤ side w h := by exact_mod_cast s2
  have sw' : (w : ℚ) ≤ side w h := by exact_mod_cast sw
  have sh' : (h : ℚ) ≤ side w h := by exact_mod_cast sh
  generalize (((w + 1) / 2 : Nat)) = W at *
  generalize (((h + 1) / 2 : Nat)) = V at *
  generalize side w h = M at *
  have p : (0 : ℚ) ≤ (3 * M - 1) / 2 := by linarith
  rcases hv with rfl | rfl | rfl <;> simp only <;> push_cast
  · have : ((3 * (M : ℚ) - 1) / 2) ^ 2 ≤ (q.x - (W - 2 * M)) ^ 2 := pow_le_pow_left₀ p (by linarith) 2
    nlinarith [sq_nonneg ((V : ℚ) - M - q.y)]
  · have : ((3 * (M : ℚ) - 1) / 2) ^ 2 ≤ (V + 2 * M - q.y) ^ 2 := pow_le_pow_left₀ p (by linarith) 2
    nlinarith [sq_nonneg ((W : ℚ) - q.x)]
  · have : ((3 * (M : ℚ) - 1) / 2) ^ 2 ≤ (W + 2 * M - q.x) ^ 2 := pow_le_pow_left₀ p (by linarith) 2
    nlinarith [sq_nonneg ((V : ℚ) - M - q.y)]

theorem Surrounded.inside {q : P2} {ρ δ : ℚ} (S : Surrounded s q ρ δ) (img : ∀ p ∈ s, InImg w h p) : 0 ≤ q.x ∧ q.x ≤ w ∧ 0 ≤ q.y ∧ q.y ≤ h := by
  obtain ⟨p1, m1, -, a1, -⟩ := S (-1) 0
  obtain ⟨p2, m2, -, a2, -⟩ := S 1 0
  obtain ⟨p3, m3, -, a3, -⟩ := S 0 (-1)
  obtain ⟨p4, m4, -, a4, -⟩ := S 0 1
  have b1 : (0 : ℚ) ≤ p1.x := by exact_mod_cast (img _ m1).x1
  have b2 : (p2.x : ℚ) ≤ w := by exact_mod_cast (img _ m2).x2
  have b3 : (0 : ℚ) ≤ p3.y := by exact_mod_cast (img _ m3).y1
  have b4 : (p4.y : ℚ) ≤ h := by exact_mod_cast (img _ m4).y2
  exact ⟨by linarith, by linarith, by linarith, by linarith⟩

/-- A disc without stored points that contains a surrounded location contains no vertex of the bounding triangle. -/
theorem surrounded_disc (k : SizeOk w h) (img : ∀ p ∈ s, InImg w h p) {q : P2} {ρ δ : ℚ} (S : Surrounded s q ρ δ) (hδ : 0 < δ)
    (hρ : 2 * ρ ^ 2 < (3 * (side w h : ℚ) - 1) * δ) {o : P2} {R : ℚ} (hq : (o.x - q.x) ^ 2 + (o.y - q.y) ^ 2 ≤ R) (emp : ∀ p ∈ s, R ≤ d2 o p)
    {v : Pt} (hv : IsVertex (newSuperTriangle w h) v) : R < d2 o v := by
  by_contra hR
  rw [not_lt] at hR
  obtain ⟨x1, x2, -, y2⟩ := S.inside img
  have far := vertex_far k hv x1 x2 y2
  obtain ⟨p, hp, l1, l2, l3⟩ := S (o.x - q.x) (o.y - q.y)
  have s2 : (2 : ℚ) ≤ side w h := by exact_mod_cast (side_bounds k).1
  have e0 := emp p hp
  unfold d2 at e0 hR
  have hδE : δ ≤ (3 * (side w h : ℚ) - 1) / 2 := by
    obtain ⟨p', -, m1, -, m3⟩ := S 1 0
    have a : δ ^ 2 ≤ ρ ^ 2 := by nlinarith [sq_nonneg ((p'.y : ℚ) - q.y)]
    have b : δ * δ ≤ (3 * (side w h : ℚ) - 1) / 2 * δ := by nlinarith
    exact le_of_mul_le_mul_right b hδ
  have hE : ρ ^ 2 < (3 * (side w h : ℚ) - 1) / 2 * δ := by linarith
  have hv' : ((v.x : ℚ) - o.x) ^ 2 + (v.y - o.y) ^ 2 ≤ R := by linarith
  have key := disc_reaches (ox := (o.x : ℚ)) (oy := (o.y : ℚ)) (qx := (q.x : ℚ)) (qy := (q.y : ℚ)) (vx := ((v.x : ℚ) : ℝ)) (vy := ((v.y : ℚ) : ℝ))
    (px := ((p.x : ℚ) : ℝ)) (py := ((p.y : ℚ) : ℝ)) (R := (R : ℚ)) (E := (((3 * (side w h : ℚ) - 1) / 2 : ℚ) : ℝ)) (ρ := (ρ : ℚ)) (δ := (δ : ℚ))
    (by exact_mod_cast hδ) (by exact_mod_cast hδE) (by exact_mod_cast hE) (by exact_mod_cast hq) (by exact_mod_cast hv') (by exact_mod_cast far)
    (by exact_mod_cast l1) (by exact_mod_cast l2) (by exact_mod_cast l3)
  have key' : ((p.x : ℚ) - o.x) ^ 2 + (p.y - o.y) ^ 2 < R := by exact_mod_cast key
  linarith

/-- A triangle with a surrounded location in its circle is reported. -/
theorem surrounded_reported (A : Arith g fl w h ops) (H : Hist w h ops s m) (e : exec g fl w h ops = some d) {q : P2} {ρ δ : ℚ} (S : Surrounded s q ρ δ)
    (hδ : 0 < δ) (hρ : 2 * ρ ^ 2 < (3 * (side w h : ℚ) - 1) * δ) {t : Tri} (ht : t ∈ live d) (hp : (norm t).pow q ≤ 0) : t ∈ iterTriangles d := by
  have I := (A.inv H e).1
  have nd := I.nondeg ht
  refine (I.iter_iff A.size t).mpr ⟨ht, ?_⟩
  obtain ⟨o, ho⟩ := centre_exists nd
  rw [pow_centre nd ho] at hp
  have emp : ∀ p ∈ s, d2 o t.a ≤ d2 o p := fun p hp => not_lt.mp fun hlt => c01_empty_circles_partial A H e t ht p hp ⟨o, ho, hlt⟩
  have key : ∀ v, IsVertex t v → d2 o v = d2 o t.a → v ∈ s := fun v hv hd =>
    ((I.vertex_iff v).mp ⟨t, ht, hv⟩).resolve_right fun hs => absurd (surrounded_disc A.size I.img S hδ hρ (by linarith) emp hs) (by rw [hd]; exact lt_irrefl _)
  exact ⟨key _ (Or.inl rfl) rfl, key _ (Or.inr (Or.inl rfl)) ho.1.symm, key _ (Or.inr (Or.inr rfl)) ho.2.symm⟩

/-- **C100** (partial: under `Arith`): a location that is surrounded by stored points, at least `δ` ahead and at most `ρ` away in every direction, is in exactly one
reported triangle if `2 ρ² < (3 max(w, h) - 1) δ`. -/
theorem c100_cover_partial (A : Arith g fl w h ops) (H : Hist w h ops s m) (e : exec g fl w h ops = some d) {q : P2} {ρ δ : ℚ} (S : Surrounded s q ρ δ)
    (hδ : 0 < δ) (hρ : 2 * ρ ^ 2 < (3 * (side w h : ℚ) - 1) * δ) : ∃! t, t ∈ iterTriangles d ∧ Owns t q := by
  have I := (A.inv H e).1
  obtain ⟨px, px', py, py'⟩ := S.inside I.img
  obtain ⟨t, ⟨ht, hq⟩, uniq⟩ := c03_image_partial A H e q px px' py py'
  exact ⟨t, ⟨surrounded_reported A H e S hδ hρ ht (I.inv.half_pow (List.mem_map_of_mem ht) ((owns_iff (I.nondeg ht) q).mp hq)).1, hq⟩,
    fun t' ⟨h1, h2⟩ => uniq t' ⟨((I.iter_iff A.size t').mp h1).1, h2⟩⟩

/-- **C100** (partial: under `Arith`), pixels: a pixel whose lattice point is surrounded is visited exactly once when the reported triangles are rasterized, in any
arithmetic rounding to 53 bits. -/
theorem c100_pixels_partial {fs : ℚ → ℚ} (A : Arith g fs w h ops) (H : Hist w h ops s m) (e : exec g fs w h ops = some d) (R : Rnd 53 fl) (z : ℚ) {x y : Int}
    {ρ δ : ℚ} (S : Surrounded s ⟨x + 1, y⟩ ρ δ) (hδ : 0 < δ) (hρ : 2 * ρ ^ 2 < (3 * (side w h : ℚ) - 1) * δ) (hp : IsPixel w h (x, y)) :
    visits fl z (iterTriangles d) (x, y) = 1 := by
  have I := (A.inv H e).1
  have hm : Monotone fl := fun a b => R.mono a b
  have h1 := (c30_triangulation_partial A H e R z (x, y)).2 hp
  refine le_antisymm (c30_iter_partial A H e R z (x, y)) ?_
  rw [visits_vis hm] at h1 ⊢
  obtain ⟨v, hv, hpos⟩ : ∃ v ∈ (live d).map fun t => vis fl t x y, 0 < v := by
    by_contra hcon
    push Not at hcon
    rw [List.sum_eq_zero (fun v hv => Nat.le_zero.mp (hcon v hv))] at h1
    cases h1
  obtain ⟨t, ht, rfl⟩ := List.mem_map.mp hv
  have sm := live_small A H e t ht
  have hc := vis_closed R (I.nondeg ht) ⟨Or.inl hp.1, sm.1⟩ ⟨Or.inl hp.1, sm.2.1⟩ ⟨Or.inl hp.1, sm.2.2⟩ hpos.ne'
  obtain ⟨c1, c2, c3⟩ := closed_norm_nonneg (I.nondeg ht) hc
  have e1 : corner x y = ⟨x + 1, y⟩ := by unfold corner; push_cast; rfl
  rw [← e1] at S
  have hr := surrounded_reported A H e S hδ hρ ht ((norm t).pow_closed (I.inv.ccw _ (List.mem_map_of_mem ht)) _ c1 c2 c3).1
  exact hpos.trans_le (List.single_le_sum (by simp) _ (List.mem_map_of_mem hr))

/-- Four points, one in each quadrant about `q`, surround it. -/
theorem surrounded_quadrants {q : P2} {ρ δ : ℚ} (hδ : 0 ≤ δ) {p1 p2 p3 p4 : Pt} (m1 : p1 ∈ s) (m2 : p2 ∈ s) (m3 : p3 ∈ s) (m4 : p4 ∈ s)
    (a1 : q.x + δ ≤ p1.x ∧ q.y + δ ≤ p1.y) (a2 : p2.x ≤ q.x - δ ∧ q.y + δ ≤ p2.y) (a3 : p3.x ≤ q.x - δ ∧ p3.y ≤ q.y - δ) (a4 : q.x + δ ≤ p4.x ∧ p4.y ≤ q.y - δ)
    (near : ∀ p ∈ [p1, p2, p3, p4], ((p.x : ℚ) - q.x) ^ 2 + (p.y - q.y) ^ 2 ≤ ρ ^ 2) : Surrounded s q ρ δ := by
  simp only [List.mem_cons, List.not_mem_nil, or_false, forall_eq_or_imp, forall_eq] at near
  obtain ⟨n1, n2, n3, n4⟩ := near
  have key : ∀ a b x y : ℚ, δ * |a| ≤ a * x → δ * |b| ≤ b * y → 0 ≤ a * x + b * y ∧ δ ^ 2 * (a ^ 2 + b ^ 2) ≤ (a * x + b * y) ^ 2 := by
    intro a b x y ha hb
    have h0 : 0 ≤ δ * |a| := mul_nonneg hδ (abs_nonneg a)
    have h1 : 0 ≤ δ * |b| := mul_nonneg hδ (abs_nonneg b)
    refine ⟨by linarith, ?_⟩
    have h2 : (δ * |a| + δ * |b|) ^ 2 ≤ (a * x + b * y) ^ 2 := pow_le_pow_left₀ (by linarith) (by linarith) 2
    have h3 : (δ * |a| + δ * |b|) ^ 2 = δ ^ 2 * (a ^ 2 + b ^ 2) + 2 * ((δ * |a|) * (δ * |b|)) := by rw [← sq_abs a, ← sq_abs b]; ring
    have h4 := mul_nonneg h0 h1
    linarith
  have pos : ∀ {a x c : ℚ}, 0 ≤ a → c + δ ≤ x → δ * |a| ≤ a * (x - c) := by
    intro a x c ha hx
    rw [abs_of_nonneg ha, mul_comm]
    exact mul_le_mul_of_nonneg_left (by linarith) ha
  have neg : ∀ {a x c : ℚ}, a ≤ 0 → x ≤ c - δ → δ * |a| ≤ a * (x - c) := by
    intro a x c ha hx
    rw [abs_of_nonpos ha]
    linarith [mul_le_mul_of_nonpos_left (show x - c ≤ -δ by linarith) ha]
  intro a b
  rcases le_total 0 a with ha | ha <;> rcases le_total 0 b with hb | hb
  · exact ⟨p1, m1, n1, key _ _ _ _ (pos ha a1.1) (pos hb a1.2)⟩
  · exact ⟨p4, m4, n4, key _ _ _ _ (pos ha a4.1) (neg hb a4.2)⟩
  · exact ⟨p2, m2, n2, key _ _ _ _ (neg ha a2.1) (pos hb a2.2)⟩
  · exact ⟨p3, m3, n3, key _ _ _ _ (neg ha a3.1) (neg hb a3.2)⟩

/-- If every disc of radius `r` about a location of the image contains a stored point, every location at least `δ + r` inside the image is surrounded. -/
theorem surrounded_net {r δ : ℚ} (hr : 0 ≤ r) (hδ : 0 ≤ δ)
    (net : ∀ x y : ℝ, 0 ≤ x → x ≤ w → 0 ≤ y → y ≤ h → ∃ p ∈ s, ((p.x : ℝ) - x) ^ 2 + (p.y - y) ^ 2 ≤ (r : ℝ) ^ 2) {q : P2}
    (x1 : δ + r ≤ q.x) (x2 : q.x ≤ w - (δ + r)) (y1 : δ + r ≤ q.y) (y2 : q.y ≤ h - (δ + r)) : Surrounded s q (δ + 2 * r) δ := by
  intro a b
  -- a unit vector in the direction
  obtain ⟨c, u, v, hc, huv, ea, eb⟩ : ∃ c u v : ℝ, 0 ≤ c ∧ u ^ 2 + v ^ 2 = 1 ∧ (a : ℝ) = c * u ∧ (b : ℝ) = c * v := by
    by_cases h0 : (a : ℝ) ^ 2 + (b : ℝ) ^ 2 = 0
    · have e1 : (a : ℝ) = 0 := by nlinarith [sq_nonneg (a : ℝ), sq_nonneg (b : ℝ)]
      have e2 : (b : ℝ) = 0 := by nlinarith [sq_nonneg (a : ℝ), sq_nonneg (b : ℝ)]
      exact ⟨0, 1, 0, le_rfl, by norm_num, by simp [e1], by simp [e2]⟩
    · have hpos : 0 < (a : ℝ) ^ 2 + (b : ℝ) ^ 2 := lt_of_le_of_ne (by positivity) (Ne.symm h0)
      have hs := Real.sqrt_pos.mpr hpos
      have e : √((a : ℝ) ^ 2 + (b : ℝ) ^ 2) ^ 2 = (a : ℝ) ^ 2 + (b : ℝ) ^ 2 := Real.sq_sqrt hpos.le
      refine ⟨√((a : ℝ) ^ 2 + (b : ℝ) ^ 2), a / √((a : ℝ) ^ 2 + (b : ℝ) ^ 2), b / √((a : ℝ) ^ 2 + (b : ℝ) ^ 2), hs.le, ?_, by field_simp, by field_simp⟩
      rw [div_pow, div_pow, e, ← add_div, div_self h0]
  have hr' : (0 : ℝ) ≤ r := by exact_mod_cast hr
  have hδ' : (0 : ℝ) ≤ δ := by exact_mod_cast hδ
  have x1' : ((δ : ℝ) + r) ≤ q.x := by exact_mod_cast x1
  have x2' : (q.x : ℝ) ≤ w - (δ + r) := by exact_mod_cast x2
  have y1' : ((δ : ℝ) + r) ≤ q.y := by exact_mod_cast y1
  have y2' : (q.y : ℝ) ≤ h - (δ + r) := by exact_mod_cast y2
  have ku : |u| ≤ 1 := abs_le_one_iff_mul_self_le_one.mpr (by nlinarith [sq_nonneg v])
  have kv : |v| ≤ 1 := abs_le_one_iff_mul_self_le_one.mpr (by nlinarith [sq_nonneg u])
  have su := abs_le.mp ku
  have sv := abs_le.mp kv
  have hk : 0 ≤ (δ : ℝ) + r := by linarith
  obtain ⟨p, hp, hd⟩ := net (q.x + (δ + r) * u) (q.y + (δ + r) * v) (by nlinarith) (by nlinarith) (by nlinarith) (by nlinarith)
  obtain ⟨X, eX⟩ : ∃ X : ℝ, X = (p.x : ℝ) - (q.x + (δ + r) * u) := ⟨_, rfl⟩
  obtain ⟨Y, eY⟩ : ∃ Y : ℝ, Y = (p.y : ℝ) - (q.y + (δ + r) * v) := ⟨_, rfl⟩
  rw [← eX, ← eY] at hd
  have lin : |u * X + v * Y| ≤ r := by
    refine abs_le_of_sq_le_sq ?_ hr'
    nlinarith [sq_nonneg (u * Y - v * X)]
  have lin' := abs_le.mp lin
  have px : (p.x : ℝ) - q.x = X + (δ + r) * u := by rw [eX]; ring
  have py : (p.y : ℝ) - q.y = Y + (δ + r) * v := by rw [eY]; ring
  have dot : (a : ℝ) * (p.x - q.x) + b * (p.y - q.y) = c * (u * X + v * Y + (δ + r)) := by
    rw [px, py, ea, eb]
    linear_combination c * (δ + r) * huv
  have ge : c * δ ≤ (a : ℝ) * (p.x - q.x) + b * (p.y - q.y) := by
    rw [dot]
    exact mul_le_mul_of_nonneg_left (by linarith) hc
  have nn := mul_nonneg hc hδ'
  have k1 : ((p.x : ℝ) - q.x) ^ 2 + (p.y - q.y) ^ 2 ≤ (δ + 2 * r) ^ 2 := by
    rw [px, py]
    have : (X + (δ + r) * u) ^ 2 + (Y + (δ + r) * v) ^ 2 = (X ^ 2 + Y ^ 2) + 2 * ((δ + r) * (u * X + v * Y)) + (δ + r) ^ 2 := by
      linear_combination ((δ : ℝ) + r) ^ 2 * huv
    have l2 := mul_le_mul_of_nonneg_left lin'.2 hk
    rw [this]
    nlinarith
  have k3 : (δ : ℝ) ^ 2 * ((a : ℝ) ^ 2 + (b : ℝ) ^ 2) ≤ ((a : ℝ) * (p.x - q.x) + b * (p.y - q.y)) ^ 2 := by
    have e : (δ : ℝ) ^ 2 * ((a : ℝ) ^ 2 + (b : ℝ) ^ 2) = (c * δ) ^ 2 := by
      rw [ea, eb]
      linear_combination (δ : ℝ) ^ 2 * c ^ 2 * huv
    rw [e]
    exact pow_le_pow_left₀ nn ge 2
  exact ⟨p, hp, by exact_mod_cast k1, by exact_mod_cast nn.trans ge, by exact_mod_cast k3⟩

/-- **C100** (partial: under `Arith`), dense points: if every disc of radius `r` about a location of the image contains a stored point, every location at least `δ + r`
inside the image is in exactly one reported triangle, for any `δ` with `2 (δ + 2 r)² < (3 max(w, h) - 1) δ` (about `8 r² / 3 max(w, h)` is enough). -/
theorem c100_net_partial (A : Arith g fl w h ops) (H : Hist w h ops s m) (e : exec g fl w h ops = some d) {r δ : ℚ} (hr : 0 ≤ r) (hδ : 0 < δ)
    (hρ : 2 * (δ + 2 * r) ^ 2 < (3 * (side w h : ℚ) - 1) * δ)
    (net : ∀ x y : ℝ, 0 ≤ x → x ≤ w → 0 ≤ y → y ≤ h → ∃ p ∈ s, ((p.x : ℝ) - x) ^ 2 + (p.y - y) ^ 2 ≤ (r : ℝ) ^ 2) {q : P2}
    (x1 : δ + r ≤ q.x) (x2 : q.x ≤ w - (δ + r)) (y1 : δ + r ≤ q.y) (y2 : q.y ≤ h - (δ + r)) : ∃! t, t ∈ iterTriangles d ∧ Owns t q :=
  c100_cover_partial A H e (surrounded_net hr hδ.le net x1 x2 y1 y2) hδ hρ

/-- **C100** (partial: for points in general position, under `Arith`), exported triangles: a triangle of `Triangulate` that contains a surrounded location is among those that
were evaluated. -/
theorem c100_exported_partial {f : Nat → Nat → Fin 256 × Fin 256 × Fin 256} {lib : List Pt → List Nat} {ps : List NP} (L : LibOnce lib)
    (A : Arith g (rne 53) w h ops) (hu : ∀ p ∈ ps, Alg.Unit01 p) (C : Regular (ofBytes (rne 53) w h f) ps)
    (H : Hist w h ops ↑(pix (rne 53) (ofBytes (rne 53) w h f) ps) m) (e : exec g (rne 53) w h ops = some d) :
    ∃ T, triangulate lib (rne 53) w h ps = some T ∧ ∀ t ∈ T, ∀ (q : P2) (ρ δ : ℚ), Closed t q →
      Surrounded ↑(pix (rne 53) (ofBytes (rne 53) w h f) ps) q ρ δ → 0 < δ → 2 * ρ ^ 2 < (3 * (side w h : ℚ) - 1) * δ →
      ∃ t' ∈ iterTriangles d, verts t' = verts t := by
  obtain ⟨T, hT, -, -, nd, emp, -, out⟩ := c96_triangles_partial L A hu C H e
  refine ⟨T, hT, fun t ht q ρ δ hq S hδ hρ => (out t ht).resolve_right ?_⟩
  rintro ⟨v, hv, o, ho, hlt⟩
  have n := nd t ht
  obtain ⟨c1, c2, c3⟩ := closed_norm_nonneg n hq
  have hp := ((norm t).pow_closed ((nondeg_iff t).mp n) _ c1 c2 c3).1
  rw [pow_centre n ho] at hp
  have := surrounded_disc A.size H.img S hδ hρ (o := o) (R := d2 o t.a) (by linarith)
    (fun p hp => not_lt.mp fun hlt => (emp t ht).2 p (by simpa using hp) ⟨o, ho, hlt⟩) hv
  exact absurd this (not_lt.mpr hlt.le)

/-! ### Cases -/

/-- The corners of the image surround its centre. -/
theorem rim_surrounded : Surrounded rimBag ⟨50, 50⟩ 75 50 :=
  surrounded_quadrants (p1 := ⟨100, 100⟩) (p2 := ⟨0, 100⟩) (p3 := ⟨0, 0⟩) (p4 := ⟨100, 0⟩) (by norm_num) (by decide) (by decide) (by decide) (by decide)
    (by norm_num) (by norm_num) (by norm_num) (by norm_num) (by decide +kernel)

example : ∃ d, exec (gridGeo ieee 100 100) (rne 53) 100 100 rimOps = some d ∧ ∃! t, t ∈ iterTriangles d ∧ Owns t ⟨50, 50⟩ := by
  obtain ⟨d, e, -⟩ := rim_exec
  exact ⟨d, e, c100_cover_partial (arith_ieee rim_size (by decide)) rim_hist e rim_surrounded (by norm_num) (by unfold side; norm_num)⟩

example : ∃ d, exec (gridGeo ieee 100 100) (rne 53) 100 100 rimOps = some d ∧ visits (rne 53) 0 (iterTriangles d) (49, 50) = 1 := by
  obtain ⟨d, e, -⟩ := rim_exec
  exact ⟨d, e, c100_pixels_partial (arith_ieee rim_size (by decide)) rim_hist e (rne_rnd (by norm_num)) 0 (x := 49) (y := 50) (ρ := 75) (δ := 50)
    (by norm_num; exact rim_surrounded) (by norm_num) (by unfold side; norm_num) ⟨by norm_num, by norm_num, by norm_num, by norm_num⟩⟩

/-- The points of a 12 x 12 image with even coordinates. -/
def evenPts : List Pt := (List.range 7).flatMap fun i : Nat => (List.range 7).map fun j : Nat => ⟨2 * i, 2 * j⟩

/-- They are dense. -/
theorem even_net (x y : ℝ) (x1 : 0 ≤ x) (x2 : x ≤ (12 : ℕ)) (y1 : 0 ≤ y) (y2 : y ≤ (12 : ℕ)) :
    ∃ p ∈ (↑evenPts : Multiset Pt), ((p.x : ℝ) - x) ^ 2 + (p.y - y) ^ 2 ≤ ((3 / 2 : ℚ) : ℝ) ^ 2 := by
  have one : ∀ z : ℝ, 0 ≤ z → z ≤ (12 : ℕ) → ∃ i : ℕ, i < 7 ∧ (2 * (i : ℝ) - z) ^ 2 ≤ 1 := by
    intro z z1 z2
    push_cast at z2
    refine ⟨⌊(z + 1) / 2⌋₊, ?_, ?_⟩
    · rw [Nat.floor_lt (by linarith)]
      push_cast
      linarith
    · have a := Nat.floor_le (show 0 ≤ (z + 1) / 2 by linarith)
      have b := Nat.lt_floor_add_one ((z + 1) / 2)
      nlinarith
  obtain ⟨i, hi, ei⟩ := one x x1 x2
  obtain ⟨j, hj, ej⟩ := one y y1 y2
  refine ⟨⟨2 * i, 2 * j⟩, ?_, ?_⟩
  · simp only [evenPts, Multiset.mem_coe, List.mem_flatMap, List.mem_map, List.mem_range]
    exact ⟨i, hi, j, hj, rfl⟩
  · push_cast
    linarith

example : ∃ d, exec (gridGeo ieee 12 12) (rne 53) 12 12 (evenPts.map .ins) = some d ∧ ∃! t, t ∈ iterTriangles d ∧ Owns t ⟨13 / 2, 17 / 3⟩ := by
  have k : SizeOk 12 12 := ⟨by norm_num, by norm_num, by norm_num, by norm_num, by norm_num⟩
  have img : ∀ p ∈ evenPts, InImg 12 12 p := by
    intro p hp
    simp only [evenPts, List.mem_flatMap, List.mem_map, List.mem_range] at hp
    obtain ⟨i, hi, j, hj, rfl⟩ := hp
    exact ⟨by simp only; omega, by simp only; omega, by simp only; omega, by simp only; omega⟩
  obtain ⟨m, H⟩ := hist_ins evenPts (Hist.nil (w := 12) (h := 12)) img (by decide)
  rw [List.nil_append, zero_add] at H
  obtain ⟨d, e⟩ := c06_c07_run_ok_partial (arith_ieee k (by decide)) H
  exact ⟨d, e, c100_net_partial (arith_ieee k (by decide)) H e (r := 3 / 2) (δ := 2) (by norm_num) (by norm_num) (by unfold side; norm_num) even_net
    (by norm_num) (by norm_num) (by norm_num) (by norm_num)⟩

/-- Four points around the middle. -/
def ringDemo : List NP := [⟨1 / 4, 1 / 4⟩, ⟨3 / 4, 1 / 8⟩, ⟨7 / 8, 7 / 8⟩, ⟨1 / 8, 3 / 4⟩]

theorem ring_pix : pix (rne 53) (ofBytes (rne 53) 40 30 fun _ _ => (0, 0, 0)) ringDemo = [⟨10, 8⟩, ⟨30, 4⟩, ⟨35, 26⟩, ⟨5, 23⟩] := by decide +kernel

theorem ring_unit : ∀ p ∈ ringDemo, Alg.Unit01 p := by
  intro p hp
  simp only [ringDemo, List.mem_cons, List.not_mem_nil, or_false] at hp
  rcases hp with rfl | rfl | rfl | rfl <;> (unfold Alg.Unit01; norm_num)

theorem ring_regular : Regular (ofBytes (rne 53) 40 30 fun _ _ => (0, 0, 0)) ringDemo := by
  have e1 : newSuperTriangle 40 30 = ⟨⟨-60, -25⟩, ⟨20, 95⟩, ⟨100, -25⟩⟩ := by decide +kernel
  refine ⟨by decide +kernel, general_of (l := [⟨10, 8⟩, ⟨30, 4⟩, ⟨35, 26⟩, ⟨5, 23⟩, ⟨-60, -25⟩, ⟨20, 95⟩, ⟨100, -25⟩]) ?_ (by decide +kernel)⟩
  rintro p (h | h)
  · rw [ring_pix] at h
    simp only [List.mem_cons, List.not_mem_nil, or_false] at h ⊢
    tauto
  · change IsVertex (newSuperTriangle 40 30) p at h
    rw [e1] at h
    unfold IsVertex at h
    simp only [List.mem_cons, List.not_mem_nil, or_false]
    tauto

/-- The exported triangle about the middle of the image was evaluated. -/
example : ∃ d T, exec (gridGeo ieee 40 30) (rne 53) 40 30 ((pix (rne 53) (ofBytes (rne 53) 40 30 fun _ _ => (0, 0, 0)) ringDemo).map .ins) = some d ∧
    triangulate onceLib (rne 53) 40 30 ringDemo = some T ∧ ∀ t ∈ T, Closed t ⟨20, 15⟩ → ∃ t' ∈ iterTriangles d, verts t' = verts t := by
  obtain ⟨m, H⟩ := hist_ins (pix (rne 53) (ofBytes (rne 53) 40 30 fun _ _ => (0, 0, 0)) ringDemo) (Hist.nil (w := 40) (h := 30))
    (pix_img (rne_rnd (by norm_num)) (by decide) (by decide) ring_unit) (by decide)
  rw [List.nil_append, zero_add] at H
  obtain ⟨d, e⟩ := c06_c07_run_ok_partial (arith_ieee demo_size (by decide)) H
  obtain ⟨T, hT, hall⟩ := c100_exported_partial onceLib_ok (arith_ieee demo_size (by decide)) ring_unit ring_regular H e
  refine ⟨d, T, e, hT, fun t ht hq => hall t ht _ 19 7 hq ?_ (by norm_num) (by unfold side; norm_num)⟩
  rw [ring_pix]
  exact surrounded_quadrants (p1 := ⟨35, 26⟩) (p2 := ⟨5, 23⟩) (p3 := ⟨10, 8⟩) (p4 := ⟨30, 4⟩) (by norm_num) (by decide) (by decide) (by decide) (by decide)
    (by norm_num) (by norm_num) (by norm_num) (by norm_num) (by decide +kernel)

end Verif.Props

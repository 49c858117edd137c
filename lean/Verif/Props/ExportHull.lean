import Verif.Props.ExportMesh
import Verif.Spec.Hull

/-!
# The exported triangles fill the convex hull (C99)

The triangles of `Triangulate` come from a Delaunay library.  For points in general position they fill the convex hull of the pixels of the points: no area is left out, and
the rasterizer visits every pixel whose corner is inside the hull exactly once.
-/

namespace Verif.Props

open Verif.Tri Verif.Spec Verif.Float Verif.Raster Verif.Fit Verif.Small Verif.Alg
open Verif.Incr hiding trunc step run Entry
open MeasureTheory

/-- The convex hull of points in the real plane. -/
def hull (P : List Pt) : Set (ℝ × ℝ) := convexHull ℝ (rloc '' {p | p ∈ P})

/-! ### Triangles with the same vertices -/

theorem openTri_perm {t t' : Tri} (hp : [t'.a, t'.b, t'.c].Perm [t.a, t.b, t.c]) {q : ℝ × ℝ} (hq : q ∈ openTri t) : q ∈ openTri t' := by
  obtain ⟨a, b, c⟩ := t
  obtain ⟨a', b', c'⟩ := t'
  simp only at hp
  rcases perm_three hp with ⟨rfl, rfl, rfl⟩ | ⟨rfl, rfl, rfl⟩ | ⟨rfl, rfl, rfl⟩ | ⟨rfl, rfl, rfl⟩ | ⟨rfl, rfl, rfl⟩ | ⟨rfl, rfl, rfl⟩
  all_goals first
    | exact hq
    | exact openTri_flip hq
    | exact openTri_rot hq
    | exact openTri_rot (openTri_rot hq)
    | exact openTri_rot (openTri_flip hq)
    | exact openTri_rot (openTri_rot (openTri_flip hq))

theorem interior_perm {t t' : Tri} (hp : [t'.a, t'.b, t'.c].Perm [t.a, t.b, t.c]) {q : P2} (hq : Interior t q) : Interior t' q := by
  have s : ∀ a b : Pt, area2 b a q = - area2 a b q := fun a b => by unfold area2; ring
  unfold Interior at *
  rcases perm_three hp with ⟨h1, h2, h3⟩ | ⟨h1, h2, h3⟩ | ⟨h1, h2, h3⟩ | ⟨h1, h2, h3⟩ | ⟨h1, h2, h3⟩ | ⟨h1, h2, h3⟩ <;> rw [h1, h2, h3] <;>
    rcases hq with ⟨k1, k2, k3⟩ | ⟨k1, k2, k3⟩ <;> have := s t.a t.b <;> have := s t.b t.c <;> have := s t.c t.a <;>
    first
      | (left; refine ⟨?_, ?_, ?_⟩ <;> linarith)
      | (right; refine ⟨?_, ?_, ?_⟩ <;> linarith)

/-! ### Coverage -/

/-- The triangles of a Delaunay library cover all locations of the hull on no line through two points. -/
theorem library_covers {lib : List Pt → List Nat} (L : LibDelaunay lib) {P : List Pt} (G : GeneralPosition (· ∈ P)) {T : List Tri} (rep : ∀ t, t ∈ T ↔ Reports lib P t)
    (q : ℝ × ℝ) (hq : q ∈ hull P) (hg : Generic P q) (hp : ∀ p ∈ P, q ≠ rloc p) : ∃ t ∈ T, q ∈ openTri t := by
  obtain ⟨t0, h0, hq0⟩ := hull_tri hg hp hq
  obtain ⟨t, ht, hqt, emp⟩ := exists_delaunay hg h0 hq0
  obtain ⟨ha, hb, hc⟩ := mem_allTris.mp ht
  have nd : NonDegenerate t := by
    have := (mem_openTri.mp hqt).1
    unfold NonDegenerate
    intro h
    apply this
    rw [rloc, rarea_cast, h, Rat.cast_zero]
  obtain ⟨o, ho⟩ := centre_exists nd
  obtain ⟨t', r, e⟩ := L.complete P t o ha hb hc nd ho (by
    intro v hv hn
    refine lt_of_le_of_ne (not_lt.mp fun hlt => emp v hv ⟨o, ho, hlt⟩) fun he => hn ?_
    exact G t.a t.b t.c v ha hb hc hv ⟨o, ho, he.symm⟩ nd)
  refine ⟨t', (rep t').mpr r, openTri_perm ?_ hqt⟩
  exact vlist_perm (L.sound P t' r).1 nd e

/-- A triangle next to a corner inside the hull. -/
theorem near_interior {P : List Pt} {T : List Tri} (cover : ∀ q ∈ hull P, Generic P q → (∀ p ∈ P, q ≠ rloc p) → ∃ t ∈ T, q ∈ openTri t) {c : P2}
    (hc : ((c.x : ℝ), (c.y : ℝ)) ∈ interior (hull P)) {s : ℚ} (hs : s ≠ 0) :
    ∃ t ∈ T, ∃ e0 : ℚ, 0 < e0 ∧ ∀ e : ℚ, 0 < e → e ≤ e0 → Interior t ⟨c.x - s * e, c.y + s * e ^ 2⟩ := by
  obtain ⟨t, ht, ev⟩ := near_one cover hc (s := (s : ℝ)) (by exact_mod_cast hs)
  obtain ⟨d, d0, hd⟩ := mem_nhdsGT_iff_exists_Ioo_subset.mp ev
  obtain ⟨e0, h1, h2⟩ := exists_rat_btwn (show (0 : ℝ) < d from d0)
  refine ⟨t, ht, e0, by exact_mod_cast h1, fun e he hle => ?_⟩
  have hle' : (e : ℝ) ≤ e0 := by exact_mod_cast hle
  have m : near ((c.x : ℝ), (c.y : ℝ)) s e ∈ openTri t := hd ⟨by exact_mod_cast he, hle'.trans_lt h2⟩
  have cast : ∀ a b : Pt, rarea a b (near ((c.x : ℝ), (c.y : ℝ)) s e) = ((area2 a b ⟨c.x - s * e, c.y + s * e ^ 2⟩ : ℚ) : ℝ) := by
    intro a b
    unfold rarea near area2
    push_cast
    ring
  obtain ⟨k1, k2, k3⟩ := m
  rw [cast, rarea_cast] at k1 k2 k3
  have k1 : 0 < area2 t.a t.b (loc t.c) * area2 t.a t.b ⟨c.x - s * e, c.y + s * e ^ 2⟩ := by exact_mod_cast k1
  have k2 : 0 < area2 t.a t.b (loc t.c) * area2 t.b t.c ⟨c.x - s * e, c.y + s * e ^ 2⟩ := by exact_mod_cast k2
  have k3 : 0 < area2 t.a t.b (loc t.c) * area2 t.c t.a ⟨c.x - s * e, c.y + s * e ^ 2⟩ := by exact_mod_cast k3
  rcases lt_trichotomy (area2 t.a t.b (loc t.c)) 0 with h | h | h
  · exact Or.inr ⟨(neg_iff_neg_of_mul_pos k1).mp h, (neg_iff_neg_of_mul_pos k2).mp h, (neg_iff_neg_of_mul_pos k3).mp h⟩
  · rw [h, zero_mul] at k1; exact absurd k1 (lt_irrefl _)
  · exact Or.inl ⟨(pos_iff_pos_of_mul_pos k1).mp h, (pos_iff_pos_of_mul_pos k2).mp h, (pos_iff_pos_of_mul_pos k3).mp h⟩

/-- A limit. -/
theorem limit_nonneg {A B C e0 : ℚ} (h0 : 0 < e0) (h : ∀ e, 0 < e → e ≤ e0 → 0 < A + B * e + C * e ^ 2) : 0 ≤ A := by
  by_contra hA
  have hA := not_le.mp hA
  have hK : 0 < |B| + |C| + 1 := by positivity
  obtain ⟨e, e1, e2, e3, e4⟩ : ∃ e : ℚ, 0 < e ∧ e ≤ e0 ∧ e ≤ 1 ∧ e * (|B| + |C| + 1) ≤ -A := by
    refine ⟨min e0 (min 1 (-A / (|B| + |C| + 1))), lt_min h0 (lt_min one_pos (div_pos (by linarith) hK)), min_le_left _ _, (min_le_right _ _).trans (min_le_left _ _), ?_⟩
    rw [← le_div_iff₀ hK]
    exact (min_le_right _ _).trans (min_le_right _ _)
  have k := h e e1 e2
  have b1 : B * e ≤ |B| * e := mul_le_mul_of_nonneg_right (le_abs_self _) e1.le
  have b2 : C * e ^ 2 ≤ |C| * e := by
    have : C * e ^ 2 ≤ |C| * e ^ 2 := mul_le_mul_of_nonneg_right (le_abs_self _) (by positivity)
    have : |C| * e ^ 2 ≤ |C| * e := mul_le_mul_of_nonneg_left (by nlinarith) (abs_nonneg _)
    linarith
  nlinarith

/-! ### The rasterizer at a shared edge -/

/-- Off the line of an edge the rounded comparison is exact. -/
theorem rc_off {fl : ℚ → ℚ} (R : Rnd 53 fl) {u v : Pt} {x y : Int} (hu : Fit x u ∧ Small u) (hv : Fit x v ∧ Small v) (h : area2 u v (corner x y) ≠ 0) :
    rc fl x y u v = cr (corner x y) (toP u) (toP v) := by
  rw [area2_ori] at h
  refine rc_cr (fun l1 l2 => ind_rnd R hu.2 hv.2 hu.1 hv.1 l1 l2 h) (fun l1 l2 => ind_rnd R hv.2 hu.2 hv.1 hu.1 l1 l2 ?_)
  rw [ori_swap]
  exact neg_ne_zero.mpr h

/-- One of two triangles on opposite sides of a shared edge visits the pixel of a corner between the ends of the edge. -/
theorem shared_visit {fl : ℚ → ℚ} (R : Rnd 53 fl) {u v p r : Pt} {x y : Int} (hu : Fit x u ∧ Small u) (hv : Fit x v ∧ Small v) (hp : Fit x p ∧ Small p) (hr : Fit x r ∧ Small r)
    (h1 : 0 < area2 u v (loc p)) (h2 : area2 u v (loc r) < 0) {l m : ℚ} (hl : 0 < l) (hm : 0 < m) (s : l + m = 1)
    (ex : (corner x y).x = l * u.x + m * v.x) (ey : (corner x y).y = l * u.y + m * v.y) (ho : Owns ⟨u, v, p⟩ (corner x y)) :
    1 ≤ vis fl ⟨u, v, p⟩ x y + vis fl ⟨v, u, r⟩ x y := by
  have hm' : m = 1 - l := by linarith
  have w : ∀ k : Pt, area2 v k (corner x y) = l * area2 u v (loc k) ∧ area2 k u (corner x y) = m * area2 u v (loc k) := by
    intro k
    unfold area2 loc
    rw [ex, ey, hm']
    constructor <;> ring
  have i1 : 0 < iori u v p := by
    rw [← iori_area] at h1
    exact_mod_cast h1
  have i2 : 0 < iori v u r := by
    have : iori v u r = - iori u v r := by unfold iori; ring
    rw [this]
    rw [← iori_area] at h2
    have : iori u v r < 0 := by exact_mod_cast h2
    omega
  have v1 := vis_rsum (prec_rnd R) hu.2 hv.2 hp.2 i1 x y
  have v2 := vis_rsum (prec_rnd R) hv.2 hu.2 hr.2 i2 x y
  unfold rsum at v1 v2
  have w1 : area2 v p (corner x y) ≠ 0 := by rw [(w p).1]; exact (mul_pos hl h1).ne'
  have w2 : area2 p u (corner x y) ≠ 0 := by rw [(w p).2]; exact (mul_pos hm h1).ne'
  have sw : ∀ a b : Pt, area2 b a (corner x y) = - area2 a b (corner x y) := fun a b => by unfold area2; ring
  have w3 : area2 u r (corner x y) ≠ 0 := by rw [sw, (w r).2]; exact neg_ne_zero.mpr (mul_neg_of_pos_of_neg hm h2).ne
  have w4 : area2 r v (corner x y) ≠ 0 := by rw [sw, (w r).1]; exact neg_ne_zero.mpr (mul_neg_of_pos_of_neg hl h2).ne
  rw [rc_off R hv hp w1, rc_off R hp hu w2] at v1
  rw [rc_off R hu hr w3, rc_off R hr hv w4, rc_anti] at v2
  have n1 : NonDegenerate ⟨u, v, p⟩ := h1.ne'
  have n2 : NonDegenerate ⟨v, u, r⟩ := by
    have : area2 v u (loc r) = - area2 u v (loc r) := by unfold area2; ring
    unfold NonDegenerate
    simp only
    rw [this]
    exact neg_ne_zero.mpr h2.ne
  have q1 : 0 < ori (toP u) (toP v) (toP p) := by rw [← iori_ori]; exact_mod_cast i1
  have q2 : 0 < ori (toP v) (toP u) (toP r) := by rw [← iori_ori]; exact_mod_cast i2
  have e1 := esum_cr _ ((nondeg_iff _).mp n1) (corner x y)
  rw [if_pos ((owns_iff n1 _).mp ho)] at e1
  have e2 := esum_cr _ ((nondeg_iff _).mp n2) (corner x y)
  have e2' : 0 ≤ esum (cr (corner x y)) (norm ⟨v, u, r⟩) := by rw [e2]; split <;> norm_num
  unfold Incr.norm at e1 e2'
  rw [if_pos q1] at e1
  rw [if_pos q2] at e2'
  unfold esum at e1 e2'
  simp only at e1 e2'
  have := cr_anti (corner x y) (toP v) (toP u)
  omega

/-- A corner on an edge of the triangle it is owned by: the pixel is visited by the triangle or by the one on the other side. -/
theorem edge_visit {fl : ℚ → ℚ} (R : Rnd 53 fl) {P : List Pt} {T : List Tri} {x y : Int} (nd : ∀ t ∈ T, NonDegenerate t)
    (bt : ∀ t ∈ T, ∀ t' ∈ T, verts t ≠ verts t' → ∃ al be ga, Between al be ga t t') (hd : (T.map verts).Nodup) (hf : ∀ t ∈ T, ∀ v, IsVertex t v → Fit x v ∧ Small v)
    (cover : ∀ q ∈ hull P, Generic P q → (∀ p ∈ P, q ≠ rloc p) → ∃ t ∈ T, q ∈ openTri t) (hc : (((corner x y).x : ℝ), ((corner x y).y : ℝ)) ∈ interior (hull P))
    {t : Tri} (ht : t ∈ T) (ho : Owns t (corner x y)) {u v p : Pt} (hp : [u, v, p].Perm [t.a, t.b, t.c]) (hz : area2 u v (corner x y) = 0) (hcu : corner x y ≠ loc u)
    (hcv : corner x y ≠ loc v) : ∃ t ∈ T, vis fl t x y ≠ 0 := by
  have mem : ∀ {r : Pt}, r ∈ [u, v, p] → IsVertex t r := fun {r} hr => by
    have := hp.subset hr
    simpa [IsVertex] using this
  have ho' : Owns ⟨u, v, p⟩ (corner x y) := by
    obtain ⟨e0, h0, hi⟩ := ho
    exact ⟨e0, h0, fun e h1 h2 => interior_perm hp (hi e h1 h2)⟩
  have hD : area2 u v (loc p) ≠ 0 := by
    obtain ⟨e0, h0, hi⟩ := ho'
    have k := hi e0 h0 le_rfl
    have s := area2_sum ⟨u, v, p⟩ ⟨(corner x y).x - e0, (corner x y).y + e0 ^ 2⟩
    simp only at s
    rcases k with ⟨a, b, c⟩ | ⟨a, b, c⟩
    · simp only at a b c
      intro h
      linarith
    · simp only at a b c
      intro h
      linarith
  have nd' : NonDegenerate ⟨u, v, p⟩ := hD
  have cl := closed_norm ((owns_iff nd' _).mp ho')
  -- the weights
  obtain ⟨l, m, n, hl, hm, hn, s, ex, ey⟩ := closed_weights nd' cl
  simp only at ex ey
  have n0 : n = 0 := by
    have : area2 u v (corner x y) = n * area2 u v (loc p) := by
      have hl' : l = 1 - m - n := by linarith
      unfold area2 loc
      rw [ex, ey, hl']
      ring
    rw [hz] at this
    exact (mul_eq_zero.mp this.symm).resolve_right hD
  rw [n0, zero_mul, add_zero] at ex ey
  rw [n0, add_zero] at s
  have at_ : ∀ {k : Pt}, (corner x y).x = k.x → (corner x y).y = k.y → corner x y = loc k := by
    intro k a b
    unfold loc
    rw [← a, ← b]
  have l0 : 0 < l := lt_of_le_of_ne hl fun h => hcv (at_ (by rw [ex, ← h, show m = 1 by linarith]; ring) (by rw [ey, ← h, show m = 1 by linarith]; ring))
  have m0 : 0 < m := lt_of_le_of_ne hm fun h => hcu (at_ (by rw [ex, ← h, show l = 1 by linarith]; ring) (by rw [ey, ← h, show l = 1 by linarith]; ring))
  -- the triangle on the other side
  obtain ⟨t', ht', e1, he1, hi'⟩ := near_interior cover hc (s := -1) (by norm_num)
  obtain ⟨e0, he0, hi⟩ := ho
  have ne : verts t ≠ verts t' := by
    intro hvv
    have tt : t = t' := List.inj_on_of_nodup_map hd ht ht' hvv
    subst tt
    have k1 := interior_perm (t' := ⟨u, v, p⟩) hp (hi _ (lt_min he0 he1) (min_le_left _ _))
    have k2 := interior_perm (t' := ⟨u, v, p⟩) hp (hi' _ (lt_min he0 he1) (min_le_right _ _))
    generalize min e0 e1 = e at k1 k2
    have e' : area2 u v ⟨(corner x y).x - e, (corner x y).y + e ^ 2⟩ + area2 u v ⟨(corner x y).x - -1 * e, (corner x y).y + -1 * e ^ 2⟩ = 2 * area2 u v (corner x y) := by
      unfold area2; ring
    rw [hz] at e'
    have s1 := area2_sum ⟨u, v, p⟩ ⟨(corner x y).x - e, (corner x y).y + e ^ 2⟩
    have s2 := area2_sum ⟨u, v, p⟩ ⟨(corner x y).x - -1 * e, (corner x y).y + -1 * e ^ 2⟩
    simp only at s1 s2
    rcases k1 with ⟨a, b, c⟩ | ⟨a, b, c⟩ <;> rcases k2 with ⟨a', b', c'⟩ | ⟨a', b', c'⟩ <;> simp only at a b c a' b' c' <;> linarith
  obtain ⟨al, be, ga, B⟩ := bt t ht t' ht' ne
  have f1 : 0 ≤ -(al * (corner x y).x + be * (corner x y).y + ga) := by
    refine limit_nonneg (B := al) (C := -be) he0 fun e h1 h2 => ?_
    have := B.interior (nd t ht) (nd t' ht') ne (hi e h1 h2)
    simp only at this
    linarith
  have f2 : 0 ≤ al * (corner x y).x + be * (corner x y).y + ga := by
    refine limit_nonneg (B := al) (C := -be) he1 fun e h1 h2 => ?_
    have := B.swap.interior (nd t' ht') (nd t ht) ne.symm (hi' e h1 h2)
    simp only at this
    linarith
  have f0 : l * (al * u.x + be * u.y + ga) + m * (al * v.x + be * v.y + ga) = 0 := by
    have : l * (al * u.x + be * u.y + ga) + m * (al * v.x + be * v.y + ga) = al * (corner x y).x + be * (corner x y).y + ga := by
      rw [ex, ey]; linear_combination ga * s
    linarith
  have nu := B.neg u (mem (by simp))
  have nv := B.neg v (mem (by simp))
  have zu : al * u.x + be * u.y + ga = 0 := by
    by_contra h
    have := mul_neg_of_pos_of_neg l0 (lt_of_le_of_ne nu h)
    have := mul_nonpos_of_nonneg_of_nonpos m0.le nv
    linarith
  have zv : al * v.x + be * v.y + ga = 0 := by
    rw [zu, mul_zero, zero_add] at f0
    exact (mul_eq_zero.mp f0).resolve_left m0.ne'
  have np : al * p.x + be * p.y + ga < 0 := by
    refine lt_of_le_of_ne (B.neg p (mem (by simp))) fun z => ?_
    obtain ⟨k, hk, lt⟩ := B.off (nd t ht) (nd t' ht') ne
    have : k ∈ [u, v, p] := hp.symm.subset (by simpa [IsVertex] using hk)
    simp only [List.mem_cons, List.not_mem_nil, or_false] at this
    rcases this with rfl | rfl | rfl <;> linarith
  obtain ⟨r, hr, opp⟩ := B.shared (nd t ht) (nd t' ht') ne hp zu zv np
  have ir : IsVertex t' r := by
    have := hr.subset (show r ∈ [u, v, r] by simp)
    simpa [IsVertex] using this
  have fu := hf t ht u (mem (by simp))
  have fv := hf t ht v (mem (by simp))
  have fp := hf t ht p (mem (by simp))
  have fr := hf t' ht' r ir
  have sum : 1 ≤ vis fl t x y + vis fl t' x y := by
    rcases opp with ⟨o1, o2⟩ | ⟨o1, o2⟩
    · have := shared_visit R fu fv fp fr o1 o2 l0 m0 s ex ey ho'
      have q1 : vis fl ⟨u, v, p⟩ x y = vis fl t x y := vis_perm fl hp x y
      have q2 : vis fl ⟨v, u, r⟩ x y = vis fl t' x y := vis_perm fl ((List.Perm.swap _ _ _).trans hr) x y
      rwa [q1, q2] at this
    · have sw : ∀ k : P2, area2 v u k = - area2 u v k := fun k => by unfold area2; ring
      have ho'' : Owns ⟨v, u, p⟩ (corner x y) := by
        obtain ⟨e0, h0, hi⟩ := ho'
        exact ⟨e0, h0, fun e h1 h2 => interior_perm (t := ⟨u, v, p⟩) (List.Perm.swap _ _ _) (hi e h1 h2)⟩
      have := shared_visit R fv fu fp fr (by rw [sw]; linarith) (by rw [sw]; linarith) m0 l0 (by linarith) (by linarith) (by linarith) ho''
      have q1 : vis fl ⟨v, u, p⟩ x y = vis fl t x y := vis_perm fl ((List.Perm.swap _ _ _).trans hp) x y
      have q2 : vis fl ⟨u, v, r⟩ x y = vis fl t' x y := vis_perm fl hr x y
      rwa [q1, q2] at this
  rcases Nat.eq_zero_or_pos (vis fl t x y) with h0 | h0
  · exact ⟨t', ht', by omega⟩
  · exact ⟨t, ht, by omega⟩

/-- A pixel whose corner is inside the hull is visited. -/
theorem hull_visit {fl : ℚ → ℚ} (R : Rnd 53 fl) {P : List Pt} {T : List Tri} {x y : Int} (nd : ∀ t ∈ T, NonDegenerate t)
    (bt : ∀ t ∈ T, ∀ t' ∈ T, verts t ≠ verts t' → ∃ al be ga, Between al be ga t t') (hd : (T.map verts).Nodup) (hf : ∀ t ∈ T, ∀ v, IsVertex t v → Fit x v ∧ Small v)
    (cover : ∀ q ∈ hull P, Generic P q → (∀ p ∈ P, q ≠ rloc p) → ∃ t ∈ T, q ∈ openTri t) (hc : (((corner x y).x : ℝ), ((corner x y).y : ℝ)) ∈ interior (hull P)) :
    ∃ t ∈ T, vis fl t x y ≠ 0 := by
  classical
  obtain ⟨t, ht, e0, he0, hi⟩ := near_interior cover hc (s := 1) one_ne_zero
  have ho : Owns t (corner x y) := ⟨e0, he0, fun e h1 h2 => by simpa using hi e h1 h2⟩
  by_cases hver : ∃ u, IsVertex t u ∧ corner x y = loc u
  · obtain ⟨u, hu, hcu⟩ := hver
    refine ⟨t, ht, ?_⟩
    rw [vis_vertex R (nd t ht) (hf t ht) hu hcu, if_pos ho]
    exact one_ne_zero
  · have off : ∀ u, IsVertex t u → corner x y ≠ loc u := fun u hu hcu => hver ⟨u, hu, hcu⟩
    have ed := fun {u v p : Pt} => edge_visit R nd bt hd hf cover hc ht ho (u := u) (v := v) (p := p)
    by_cases z1 : area2 t.a t.b (corner x y) = 0
    · exact ed (List.Perm.refl _) z1 (off _ (Or.inl rfl)) (off _ (Or.inr (Or.inl rfl)))
    by_cases z2 : area2 t.b t.c (corner x y) = 0
    · exact ed (((List.Perm.swap _ _ _).trans ((List.Perm.swap _ _ _).cons _)).trans ((List.Perm.swap _ _ _).trans ((List.Perm.swap _ _ _).cons _))) z2 (off _ (Or.inr (Or.inl rfl)))
        (off _ (Or.inr (Or.inr rfl)))
    by_cases z3 : area2 t.c t.a (corner x y) = 0
    · exact ed ((List.Perm.swap _ _ _).trans ((List.Perm.swap _ _ _).cons _)) z3 (off _ (Or.inr (Or.inr rfl))) (off _ (Or.inl rfl))
    refine ⟨t, ht, ?_⟩
    rw [vis_round R (nd t ht) (hf t ht _ (Or.inl rfl)) (hf t ht _ (Or.inr (Or.inl rfl))) (hf t ht _ (Or.inr (Or.inr rfl))), if_pos ho]
    · exact one_ne_zero
    · intro u v huv _
      simp only [List.mem_cons, Prod.mk.injEq, List.not_mem_nil, or_false] at huv
      rcases huv with ⟨rfl, rfl⟩ | ⟨rfl, rfl⟩ | ⟨rfl, rfl⟩
      exacts [z1, z2, z3]

/-- A visited pixel has its corner in the hull. -/
theorem visit_hull {fl : ℚ → ℚ} (R : Rnd 53 fl) {P : List Pt} {t : Tri} {x y : Int} (nd : NonDegenerate t) (hv : ∀ v, IsVertex t v → v ∈ P)
    (hf : ∀ v, IsVertex t v → Fit x v ∧ Small v) (h : vis fl t x y ≠ 0) : (((corner x y).x : ℝ), ((corner x y).y : ℝ)) ∈ hull P := by
  have cl := vis_closed R nd (hf _ (Or.inl rfl)) (hf _ (Or.inr (Or.inl rfl))) (hf _ (Or.inr (Or.inr rfl))) h
  obtain ⟨l, m, n, hl, hm, hn, s, ex, ey⟩ := closed_weights nd cl
  have hs : ∀ p ∈ P, rloc p ∈ hull P := fun p hp => subset_convexHull ℝ _ ⟨p, hp, rfl⟩
  have ha := hs _ (hv t.a (Or.inl rfl))
  have hb := hs _ (hv t.b (Or.inr (Or.inl rfl)))
  have hc := hs _ (hv t.c (Or.inr (Or.inr rfl)))
  have c1 : Convex ℝ (hull P) := convex_convexHull ℝ _
  have := c1.sum_mem (t := Finset.univ) (w := ![(l : ℝ), (m : ℝ), (n : ℝ)]) (z := ![rloc t.a, rloc t.b, rloc t.c]) (by
    intro i _; fin_cases i <;> simp [hl, hm, hn]) (by
    simp [Fin.sum_univ_three]; exact_mod_cast s) (by
    intro i _; fin_cases i <;> simp <;> [exact ha; exact hb; exact hc])
  have e : (((corner x y).x : ℝ), ((corner x y).y : ℝ)) = (l : ℝ) • rloc t.a + (m : ℝ) • rloc t.b + (n : ℝ) • rloc t.c := by
    refine Prod.ext ?_ ?_
    · simp only [ex]; simp [rloc]
    · simp only [ey]; simp [rloc]
  rw [e]
  simpa [Fin.sum_univ_three] using this

/-! ### The area -/

theorem area_volume (t : Tri) : volume (openTri t) = ENNReal.ofReal ((area t : ℚ) : ℝ) := by
  have e : ((area t : ℚ) : ℝ) = |rarea t.a t.b (rloc t.c)| / 2 := by
    unfold Props.area
    rw [rloc, rarea_cast]
    push_cast
    rfl
  rw [e]
  exact le_antisymm (openTri_volume_le t) (openTri_volume t)

theorem area_list : ∀ T : List Tri, (T.map fun t => volume (openTri t)).sum = ENNReal.ofReal (((T.map area).sum : ℚ) : ℝ)
  | [] => by simp
  | t :: T => by
    have h1 : 0 ≤ area t := by unfold Props.area; positivity
    have h2 : 0 ≤ (T.map area).sum := List.sum_nonneg fun a ha => by
      obtain ⟨t, -, rfl⟩ := List.mem_map.mp ha
      unfold Props.area; positivity
    rw [List.map_cons, List.map_cons, List.sum_cons, List.sum_cons, area_list T, area_volume, Rat.cast_add, ENNReal.ofReal_add (by exact_mod_cast h1) (by exact_mod_cast h2)]

/-- Triangles in the hull with disjoint interiors that cover the generic locations have the area of the hull. -/
theorem hull_area {P : List Pt} {T : List Tri} (sub : ∀ t ∈ T, openTri t ⊆ hull P) (dis : T.Pairwise fun t t' => Disjoint (openTri t) (openTri t'))
    (cover : ∀ q ∈ hull P, Generic P q → (∀ p ∈ P, q ≠ rloc p) → ∃ t ∈ T, q ∈ openTri t) : volume (hull P) = ENNReal.ofReal (((T.map area).sum : ℚ) : ℝ) := by
  rw [← area_list, openTri_list dis]
  refine le_antisymm ?_ (measure_mono (Set.iUnion₂_subset sub))
  refine measure_mono_ae ?_
  filter_upwards [generic_ae P] with q hq hin
  obtain ⟨t, ht, h⟩ := cover q hin hq.1 hq.2
  exact Set.mem_iUnion₂.mpr ⟨t, ht, h⟩

/-! ### C99 -/

/-- **C99**, area, for points of which no four pixels are on a circle: the areas of the triangles that `Triangulate` returns add up to the area of the convex hull of the
pixels of the points, and almost every location of the hull is inside one of them. -/
theorem c99_area {lib : List Pt → List Nat} (L : LibOnce lib) {fl : ℚ → ℚ} {w h : Nat} {ps : List NP} (G : GeneralPosition (· ∈ ps.map (groupPoint fl w h))) :
    ∃ T, triangulate lib fl w h ps = some T ∧ volume (hull (ps.map (groupPoint fl w h))) = ENNReal.ofReal (((T.map area).sum : ℚ) : ℝ) ∧
      (∀ t ∈ T, openTri t ⊆ hull (ps.map (groupPoint fl w h))) ∧ ∀ᵐ q, q ∈ hull (ps.map (groupPoint fl w h)) → ∃ t ∈ T, q ∈ openTri t := by
  obtain ⟨T, hT, -, -⟩ := c80_triangulate lib L.ok fl w h ps
  have rep := triangulate_reports L.ok hT
  have ver : ∀ t ∈ T, t.a ∈ ps.map (groupPoint fl w h) ∧ t.b ∈ ps.map (groupPoint fl w h) ∧ t.c ∈ ps.map (groupPoint fl w h) := by
    intro t ht
    obtain ⟨i, a, b, c, -, h1, h2, h3⟩ := (rep t).mp ht
    exact ⟨List.mem_of_getElem? h1, List.mem_of_getElem? h2, List.mem_of_getElem? h3⟩
  have ver' : ∀ t ∈ T, ∀ v, IsVertex t v → v ∈ ps.map (groupPoint fl w h) := by
    rintro t ht v (rfl | rfl | rfl)
    exacts [(ver t ht).1, (ver t ht).2.1, (ver t ht).2.2]
  have cover := library_covers L.toLibDelaunay G rep
  have sub : ∀ t ∈ T, openTri t ⊆ hull (ps.map (groupPoint fl w h)) := fun t ht => openTri_hull (mem_allTris.mpr (ver t ht))
  refine ⟨T, hT, hull_area sub ?_ cover, sub, ?_⟩
  · refine (List.pairwise_map.mp (triangulate_nodup L hT)).imp_of_mem fun {t t'} ht ht' ne => ?_
    have s := L.sound _ t ((rep t).mp ht)
    have s' := L.sound _ t' ((rep t').mp ht')
    obtain ⟨al, be, ga, B⟩ := delaunay_between G s.1 s'.1 (ver' t ht) (ver' t' ht') s.2 s'.2
    exact B.disjoint s.1 s'.1 ne
  · filter_upwards [generic_ae (ps.map (groupPoint fl w h))] with q hq hin
    exact cover q hin hq.1 hq.2

/-- **C99**, pixels, for points of which no four pixels are on a circle: drawing the triangles that `Triangulate` returns with the rasterizer, in any arithmetic of 53 bits,
visits every pixel whose lattice point `(x + 1, y)` is in the interior of the convex hull of the pixels of the points exactly once, and no pixel whose lattice point is outside the hull. -/
theorem c99_pixels {lib : List Pt → List Nat} (L : LibOnce lib) {fl : ℚ → ℚ} (R : Rnd 53 fl) {w h : Nat} (hw : w ≤ 32767) (hh : h ≤ 32767) {ps : List NP}
    (hu : ∀ p ∈ ps, Alg.Unit01 p) (G : GeneralPosition (· ∈ ps.map (groupPoint fl w h))) :
    ∃ T, triangulate lib fl w h ps = some T ∧ ∀ fl', Rnd 53 fl' → ∀ (z : ℚ) (x y : Int),
      (((x : ℝ) + 1, (y : ℝ)) ∈ interior (hull (ps.map (groupPoint fl w h))) → (T.flatMap (DDATriangle fl' z)).count (x, y) = 1) ∧
      (((x : ℝ) + 1, (y : ℝ)) ∉ hull (ps.map (groupPoint fl w h)) → (T.flatMap (DDATriangle fl' z)).count (x, y) = 0) := by
  obtain ⟨T, hT, -, -⟩ := c80_triangulate lib L.ok fl w h ps
  have M := triangulate_mesh L R hw hh hu G hT
  have rep := triangulate_reports L.ok hT
  have ver : ∀ t ∈ T, ∀ v, IsVertex t v → v ∈ ps.map (groupPoint fl w h) := by
    intro t ht v hv
    obtain ⟨i, a, b, c, -, h1, h2, h3⟩ := (rep t).mp ht
    rcases hv with rfl | rfl | rfl
    exacts [List.mem_of_getElem? h1, List.mem_of_getElem? h2, List.mem_of_getElem? h3]
  refine ⟨T, hT, fun fl' R' z x y => ?_⟩
  have hm : Monotone fl' := fun a b => R'.mono a b
  have fit : ∀ t ∈ T, ∀ v, IsVertex t v → Fit x v ∧ Small v := by
    intro t ht v hv
    have := M.img t ht v (by simpa [vlist, IsVertex] using hv)
    refine ⟨Or.inr ⟨this.1, this.2.2.1⟩, Int16.small ?_⟩
    unfold Int16
    omega
  have cc : (((corner x y).x : ℝ), ((corner x y).y : ℝ)) = ((x : ℝ) + 1, (y : ℝ)) := by
    unfold corner
    push_cast
    rfl
  constructor
  · intro hin
    obtain ⟨t, ht, hne⟩ := hull_visit R' (fun t ht => (L.sound _ t ((rep t).mp ht)).1) (fun t ht t' ht' _ =>
        delaunay_between G (L.sound _ t ((rep t).mp ht)).1 (L.sound _ t' ((rep t').mp ht')).1 (ver t ht) (ver t' ht') (L.sound _ t ((rep t).mp ht)).2 (L.sound _ t' ((rep t').mp ht')).2)
      (triangulate_nodup L hT) fit
      (library_covers L.toLibDelaunay G rep) (x := x) (y := y) (by rw [cc]; exact hin)
    have up := M.once fl' R' z (x, y)
    have low : 0 < (T.flatMap (DDATriangle fl' z)).count (x, y) := by
      rw [List.count_pos_iff, List.mem_flatMap]
      exact ⟨t, ht, List.count_pos_iff.mp (by rw [count_vis hm]; exact Nat.pos_of_ne_zero hne)⟩
    unfold visits at up
    rw [List.count_flatMap] at low ⊢
    have e : (List.map (List.count (x, y) ∘ DDATriangle fl' z) T).sum ≤ 1 := up
    omega
  · intro hout
    by_contra hne
    have hmem := List.count_pos_iff.mp (Nat.pos_of_ne_zero hne)
    obtain ⟨t, ht, hq⟩ := List.mem_flatMap.mp hmem
    have : vis fl' t x y ≠ 0 := by
      rw [← count_vis hm z]
      exact (List.count_pos_iff.mpr hq).ne'
    apply hout
    rw [← cc]
    exact visit_hull R' (L.sound _ t ((rep t).mp ht)).1 (ver t ht) (fit t ht) this

/-! ### Cases -/

/-- The assumptions of `c99_pixels` hold of `fivePoints`. -/
example : ∃ T, triangulate onceLib (rne 53) 40 30 fivePoints = some T ∧ ∀ fl', Rnd 53 fl' → ∀ (z : ℚ) (x y : Int),
    (((x : ℝ) + 1, (y : ℝ)) ∈ interior (hull (fivePoints.map (groupPoint (rne 53) 40 30))) → (T.flatMap (DDATriangle fl' z)).count (x, y) = 1) ∧
    (((x : ℝ) + 1, (y : ℝ)) ∉ hull (fivePoints.map (groupPoint (rne 53) 40 30)) → (T.flatMap (DDATriangle fl' z)).count (x, y) = 0) :=
  c99_pixels onceLib_ok (rne_rnd (by norm_num)) (by norm_num) (by norm_num) (by unfold fivePoints Alg.Unit01; norm_num) (general_of (fun _ h => h) (by decide +kernel))

/-- The assumptions of `c99_area` hold of `fivePoints`. -/
example : ∃ T, triangulate onceLib (rne 53) 40 30 fivePoints = some T ∧ volume (hull (fivePoints.map (groupPoint (rne 53) 40 30))) = ENNReal.ofReal (((T.map area).sum : ℚ) : ℝ) := by
  obtain ⟨T, h1, h2, -⟩ := c99_area onceLib_ok (fl := rne 53) (w := 40) (h := 30) (ps := fivePoints) (general_of (fun _ h => h) (by decide +kernel))
  exact ⟨T, h1, h2⟩

/-- A pixel with its corner inside the hull of `fivePoints`. -/
example : ((((20 : Int) : ℝ)) + 1, (((15 : Int) : ℝ))) ∈ interior (hull (fivePoints.map (groupPoint (rne 53) 40 30))) := by
  have e : fivePoints.map (groupPoint (rne 53) 40 30) = [⟨0, 4⟩, ⟨35, 8⟩, ⟨10, 26⟩, ⟨20, 11⟩, ⟨40, 30⟩] := by decide +kernel
  rw [e]
  refine interior_maximal (openTri_hull (t := ⟨⟨35, 8⟩, ⟨10, 26⟩, ⟨20, 11⟩⟩) (mem_allTris.mpr (by decide))) (openTri_open _) ?_
  refine ⟨?_, ?_, ?_⟩ <;> unfold rarea <;> norm_num

end Verif.Props

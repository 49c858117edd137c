import Verif.Props.Sketch
import Batteries.Data.List.Pairwise

/-! # C108: every list of points has a Delaunay triangulation

The assumption of C105-C107 on the library can be met for all points, also for points on common circles and lines: the paraboloid is raised a little at each point, by different amounts, and the
lower hull of the points so lifted is taken. -/

namespace Verif.Props

open Verif.Tri Verif.Spec Verif.Float Verif.Raster Verif.Fit Verif.Small Verif.Alg
open Verif.Incr hiding trunc step run Entry

/-- How much the height at `v` exceeds the plane through the heights at the vertices, times twice the area. -/
def tilt (φ : Pt → ℚ) (t : Tri) (v : Pt) : ℚ :=
  area2 t.a t.b (loc t.c) * φ v - (area2 t.b t.c (loc v) * φ t.a + area2 t.c t.a (loc v) * φ t.b + area2 t.a t.b (loc v) * φ t.c)

/-- The paraboloid. -/
def bowl (v : Pt) : ℚ := (v.x : ℚ) ^ 2 + (v.y : ℚ) ^ 2

theorem tilt_bowl {t : Tri} {o : P2} (hc : Centre t o) (v : Pt) : tilt bowl t v = area2 t.a t.b (loc t.c) * (d2 o v - d2 o t.a) := by
  obtain ⟨h1, h2⟩ := hc
  have e : tilt bowl t v = tilt (d2 o) t v := by unfold tilt bowl d2 area2 loc; ring
  have s := area2_sum t (loc v)
  rw [e]
  unfold tilt
  rw [← h1, ← h2]
  linear_combination (-(d2 o t.a)) * s

theorem tilt_a (φ : Pt → ℚ) (a b c v : Pt) : tilt φ ⟨v, b, c⟩ a = - tilt φ ⟨a, b, c⟩ v := by unfold tilt area2 loc; ring

theorem tilt_b (φ : Pt → ℚ) (a b c v : Pt) : tilt φ ⟨a, v, c⟩ b = - tilt φ ⟨a, b, c⟩ v := by unfold tilt area2 loc; ring

theorem tilt_c (φ : Pt → ℚ) (a b c v : Pt) : tilt φ ⟨a, b, v⟩ c = - tilt φ ⟨a, b, c⟩ v := by unfold tilt area2 loc; ring

/-- Heights such that no four points, no three of them on a line, are on a plane. -/
theorem weights (P : List Pt) : ∃ g : Pt → ℚ, ∀ a ∈ P, ∀ b ∈ P, ∀ c ∈ P, ∀ v ∈ P, area2 a b (loc c) ≠ 0 → area2 b c (loc v) ≠ 0 → area2 c a (loc v) ≠ 0 → area2 a b (loc v) ≠ 0 →
    tilt g ⟨a, b, c⟩ v ≠ 0 := by
  classical
  induction P with
  | nil => exact ⟨fun _ => 0, by simp⟩
  | cons p P ih =>
    obtain ⟨g, hg⟩ := ih
    let bad : Tri → ℚ := fun t => (area2 t.b t.c (loc p) * g t.a + area2 t.c t.a (loc p) * g t.b + area2 t.a t.b (loc p) * g t.c) / area2 t.a t.b (loc t.c)
    obtain ⟨x, hx⟩ := Infinite.exists_notMem_finset ((allTris P).map bad).toFinset
    rw [List.mem_toFinset] at hx
    have one : ∀ a ∈ P, ∀ b ∈ P, ∀ c ∈ P, a ≠ p → b ≠ p → c ≠ p → area2 a b (loc c) ≠ 0 → tilt (Function.update g p x) ⟨a, b, c⟩ p ≠ 0 := by
      intro a ha b hb c hc na nb nc h0 h
      unfold tilt at h
      simp only [Function.update_self, Function.update_of_ne na, Function.update_of_ne nb, Function.update_of_ne nc] at h
      apply hx
      refine List.mem_map.mpr ⟨⟨a, b, c⟩, mem_allTris.mpr ⟨ha, hb, hc⟩, ?_⟩
      change (_ : ℚ) / _ = x
      rw [div_eq_iff h0]
      linarith
    have r : ∀ a b c : Pt, area2 b c (loc a) = area2 a b (loc c) := fun a b c => by unfold area2 loc; ring
    have n1 : ∀ {a b c : Pt}, area2 a b (loc c) ≠ 0 → a ≠ b := fun {a b c} h e => h (by rw [e]; unfold area2; ring)
    have n2 : ∀ {a b c : Pt}, area2 a b (loc c) ≠ 0 → b ≠ c := fun {a b c} h e => h (by rw [e]; unfold area2 loc; ring)
    have n3 : ∀ {a b c : Pt}, area2 a b (loc c) ≠ 0 → c ≠ a := fun {a b c} h e => h (by rw [e]; unfold area2 loc; ring)
    refine ⟨Function.update g p x, fun a ha b hb c hc v hv h0 h1 h2 h3 => ?_⟩
    have mem : ∀ {u : Pt}, u ∈ p :: P → u ≠ p → u ∈ P := fun h n => (List.mem_cons.mp h).resolve_left n
    by_cases hvp : v = p
    · subst hvp
      have ka := n3 h3
      have kb := n3 h1
      have kc := n3 h2
      exact one a (mem ha ka.symm) b (mem hb kb.symm) c (mem hc kc.symm) ka.symm kb.symm kc.symm h0
    by_cases hap : a = p
    · subst hap
      have kb := (n1 h0).symm
      have kc := n3 h0
      have := one v (mem hv hvp) b (mem hb kb) c (mem hc kc) hvp kb kc (by rw [← r]; exact h1)
      rw [tilt_a] at this
      exact fun h => this (by rw [h, neg_zero])
    by_cases hbp : b = p
    · subst hbp
      have kc := (n2 h0).symm
      have := one a (mem ha hap) v (mem hv hvp) c (mem hc kc) hap hvp kc (by rw [← r, ← r]; exact h2)
      rw [tilt_b] at this
      exact fun h => this (by rw [h, neg_zero])
    by_cases hcp : c = p
    · subst hcp
      have := one a (mem ha hap) b (mem hb hbp) v (mem hv hvp) hap hbp hvp h3
      rw [tilt_c] at this
      exact fun h => this (by rw [h, neg_zero])
    have := hg a (mem ha hap) b (mem hb hbp) c (mem hc hcp) v (mem hv hvp) h0 h1 h2 h3
    unfold tilt at this ⊢
    simp only [Function.update_of_ne hvp, Function.update_of_ne hap, Function.update_of_ne hbp, Function.update_of_ne hcp] at this ⊢
    exact this

/-- Three points of a circle are on no line. -/
theorem circle_line {o : P2} {a b c : Pt} (h1 : a ≠ b) (h2 : b ≠ c) (h3 : c ≠ a) (e1 : d2 o a = d2 o c) (e2 : d2 o b = d2 o c) : area2 a b (loc c) ≠ 0 := by
  intro h
  obtain ⟨X, Y, k⟩ := line_circle (al := -((b.y : ℚ) - a.y)) (be := (b.x : ℚ) - a.x) (ga := ((b.y : ℚ) - a.y) * a.x - (b.x - a.x) * a.y) (R := d2 o c) (by
      by_contra hn
      push Not at hn
      apply h1
      obtain ⟨ax, ay⟩ := a
      obtain ⟨bx, b_y⟩ := b
      have k1 : (b_y : ℚ) - ay = 0 := neg_eq_zero.mp hn.1
      have k2 : (bx : ℚ) - ax = 0 := hn.2
      rw [sub_eq_zero] at k1 k2
      rw [Pt.mk.injEq]
      exact ⟨by exact_mod_cast k2.symm, by exact_mod_cast k1.symm⟩) o (fun v => v = a ∨ v = b ∨ v = c) (by
      rintro v (rfl | rfl | rfl)
      · ring
      · ring
      · unfold area2 loc at h
        linear_combination h) (by
      rintro v (rfl | rfl | rfl)
      exacts [e1, e2, rfl])
  rcases k a (by simp) with h4 | h4 <;> rcases k b (by simp) with h5 | h5 <;> rcases k c (by simp) with h6 | h6 <;> subst h4 <;> simp_all

/-- Heights for which a point inside the circle of a triangle is below its plane, and only the vertices are on it. -/
theorem exists_heights (P : List Pt) : ∃ φ : Pt → ℚ, ∀ t ∈ allTris P, NonDegenerate t → ∀ v ∈ P,
    (InsideCircle t v → area2 t.a t.b (loc t.c) * tilt φ t v < 0) ∧ (tilt φ t v = 0 → IsVertex t v) := by
  obtain ⟨g, hg⟩ := weights P
  obtain ⟨e, he, sm⟩ := small_values ((allTris P).product P) (fun x => tilt bowl x.1 x.2) (fun x => tilt g x.1 x.2)
  refine ⟨fun v => bowl v + e * g v, fun t ht nd v hv => ?_⟩
  have lin : tilt (fun v => bowl v + e * g v) t v = tilt bowl t v + e * tilt g t v := by unfold tilt; ring
  have sm := sm (t, v) (List.mem_product.mpr ⟨ht, hv⟩)
  simp only at sm
  constructor
  · rintro ⟨o, hc, lt⟩
    have e1 := tilt_bowl hc v
    have D2 : 0 < area2 t.a t.b (loc t.c) * area2 t.a t.b (loc t.c) := mul_self_pos.mpr nd
    have n : area2 t.a t.b (loc t.c) * tilt bowl t v < 0 := by rw [e1]; nlinarith
    have sm := sm (fun h => by rw [h, mul_zero] at n; exact lt_irrefl _ n)
    have k : |area2 t.a t.b (loc t.c) * (e * tilt g t v)| < |area2 t.a t.b (loc t.c) * tilt bowl t v| := by
      rw [abs_mul, abs_mul, abs_mul, abs_of_pos he]
      exact mul_lt_mul_of_pos_left sm (abs_pos.mpr nd)
    rw [abs_of_neg n, abs_lt] at k
    rw [lin, mul_add]
    linarith [k.2]
  · intro h
    rw [lin] at h
    by_cases h0 : tilt bowl t v = 0
    · rw [h0, zero_add] at h
      have hz := (mul_eq_zero.mp h).resolve_left he.ne'
      by_contra hn
      unfold IsVertex at hn
      push Not at hn
      obtain ⟨o, hc⟩ := centre_exists nd
      have on : d2 o v = d2 o t.a := by
        rw [tilt_bowl hc] at h0
        linarith [(mul_eq_zero.mp h0).resolve_left nd]
      obtain ⟨ha, hb, hcm⟩ := mem_allTris.mp ht
      obtain ⟨k1, k2, k3⟩ := nondeg_ne (a := t.a) (b := t.b) (c := t.c) nd
      refine hg t.a ha t.b hb t.c hcm v hv nd ?_ ?_ ?_ hz
      · exact circle_line (by tauto) (Ne.symm hn.2.2) hn.2.1 (by rw [on, hc.1]) (by rw [on, hc.2])
      · exact circle_line (by tauto) (Ne.symm hn.1) hn.2.2 (by rw [on, hc.2]) (by rw [on])
      · exact circle_line (by tauto) (Ne.symm hn.2.1) hn.1 (by rw [on]) (by rw [on, hc.1])
    · have sm := sm h0
      rw [eq_neg_of_add_eq_zero_left h, abs_neg, abs_mul, abs_of_pos he] at sm
      exact absurd sm (lt_irrefl _)

/-- The plane through the heights of the vertices. -/
theorem plane {φ : Pt → ℚ} {P : List Pt} {t : Tri} (nd : NonDegenerate t) (low : ∀ v ∈ P, 0 ≤ area2 t.a t.b (loc t.c) * tilt φ t v) (on : ∀ v ∈ P, tilt φ t v = 0 → IsVertex t v) :
    ∃ al be ga : ℚ, (∀ v, IsVertex t v → al * v.x + be * v.y + ga = φ v) ∧ ∀ v ∈ P, al * v.x + be * v.y + ga ≤ φ v ∧ (al * v.x + be * v.y + ga = φ v → IsVertex t v) := by
  have hD : area2 t.a t.b (loc t.c) ≠ 0 := nd
  obtain ⟨al, be, ga, h⟩ : ∃ al be ga : ℚ, ∀ v : Pt, area2 t.a t.b (loc t.c) * (φ v - (al * v.x + be * v.y + ga)) = tilt φ t v := by
    refine ⟨(-((t.c.y : ℚ) - t.b.y) * φ t.a - (t.a.y - t.c.y) * φ t.b - (t.b.y - t.a.y) * φ t.c) / area2 t.a t.b (loc t.c),
      (((t.c.x : ℚ) - t.b.x) * φ t.a + (t.a.x - t.c.x) * φ t.b + (t.b.x - t.a.x) * φ t.c) / area2 t.a t.b (loc t.c),
      ((((t.c.y : ℚ) - t.b.y) * t.b.x - (t.c.x - t.b.x) * t.b.y) * φ t.a + ((t.a.y - t.c.y) * t.c.x - (t.a.x - t.c.x) * t.c.y) * φ t.b +
        ((t.b.y - t.a.y) * t.a.x - (t.b.x - t.a.x) * t.a.y) * φ t.c) / area2 t.a t.b (loc t.c), fun v => ?_⟩
    unfold tilt
    generalize hE : area2 t.a t.b (loc t.c) = E at hD
    rw [mul_sub, sub_right_inj]
    have : ∀ A B C x y : ℚ, E * (A / E * x + B / E * y + C / E) = A * x + B * y + C := by intro A B C x y; field_simp
    rw [this]
    unfold area2 loc
    ring
  have zero : ∀ v, tilt φ t v = 0 ↔ al * v.x + be * v.y + ga = φ v := by
    intro v
    rw [← h v, mul_eq_zero, or_iff_right hD, sub_eq_zero, eq_comm]
  refine ⟨al, be, ga, fun v hv => (zero v).mp ?_, fun v hv => ⟨?_, fun e => on v hv ((zero v).mpr e)⟩⟩
  · rcases hv with rfl | rfl | rfl <;> (unfold tilt area2 loc; ring)
  · have := low v hv
    rw [← h v, ← mul_assoc] at this
    linarith [nonneg_of_mul_nonneg_right this (mul_self_pos.mpr hD)]

/-- Every list of points has a Delaunay triangulation. -/
theorem tiling_exists (P : List Pt) : ∃ T, Tiling P T := by
  classical
  obtain ⟨φ, H⟩ := exists_heights P
  let low : Tri → Prop := fun t => NonDegenerate t ∧ ∀ v ∈ P, 0 ≤ area2 t.a t.b (loc t.c) * tilt φ t v
  let T0 := (allTris P).filter fun t => low t
  let T := T0.pwFilter fun t t' => verts t ≠ verts t'
  have sub : ∀ t ∈ T, t ∈ allTris P ∧ low t := by
    intro t ht
    have := List.mem_filter.mp (List.pwFilter_subset _ ht)
    exact ⟨this.1, by simpa using this.2⟩
  have all : ∀ t ∈ T0, ∃ t' ∈ T, verts t = verts t' := by
    intro t ht
    by_contra hn
    push Not at hn
    exact (List.forall_mem_pwFilter (R := fun t t' : Tri => verts t ≠ verts t') (fun {x y z} h => by
      by_contra hc
      push Not at hc
      exact h (hc.1.trans hc.2)) t T0).mp hn t ht rfl
  refine ⟨T, fun t ht => (sub t ht).2.1, ?_, fun t ht v hv hin => ?_, ?_, fun q hq => ?_⟩
  · rintro t ht v hv
    obtain ⟨h1, h2, h3⟩ := mem_allTris.mp (sub t ht).1
    rcases hv with rfl | rfl | rfl
    exacts [h1, h2, h3]
  · exact absurd (((H t (sub t ht).1 (sub t ht).2.1 v hv).1) hin) (not_lt.mpr ((sub t ht).2.2 v hv))
  · refine (List.pairwise_pwFilter (R := fun t t' : Tri => verts t ≠ verts t') T0).imp_of_mem fun {t t'} ht ht' ne => ?_
    have ver : ∀ t ∈ T, ∀ v, IsVertex t v → v ∈ P := by
      intro t ht v hv
      obtain ⟨h1, h2, h3⟩ := mem_allTris.mp (sub t ht).1
      rcases hv with rfl | rfl | rfl
      exacts [h1, h2, h3]
    obtain ⟨al, be, ga, p1, p2⟩ := plane (sub t ht).2.1 (sub t ht).2.2 fun v hv => (H t (sub t ht).1 (sub t ht).2.1 v hv).2
    obtain ⟨al', be', ga', p1', p2'⟩ := plane (sub t' ht').2.1 (sub t' ht').2.2 fun v hv => (H t' (sub t' ht').1 (sub t' ht').2.1 v hv).2
    have B : Between (al' - al) (be' - be) (ga' - ga) t t' := by
      refine ⟨fun v hv => ?_, fun v hv => ?_, fun v hv h => ?_, fun v hv h => ?_⟩
      · linarith [p1 v hv, (p2' v (ver t ht v hv)).1]
      · linarith [p1' v hv, (p2 v (ver t' ht' v hv)).1]
      · exact (p2' v (ver t ht v hv)).2 (by linarith [p1 v hv])
      · exact (p2 v (ver t' ht' v hv)).2 (by linarith [p1' v hv])
    exact B.parted (sub t ht).2.1 (sub t' ht').2.1 ne
  · have cover : ∀ q ∈ hull P, Generic P q → (∀ p ∈ P, q ≠ rloc p) → ∃ t ∈ T, q ∈ openTri t := by
      intro q hq hg hp
      obtain ⟨t0, h0, hq0⟩ := hull_tri hg hp hq
      obtain ⟨t, ht, hqt, lo⟩ := exists_lowest (fun v => (φ v : ℝ)) hg h0 hq0
      have hD := (mem_openTri.mp hqt).1
      have nd : NonDegenerate t := fun h => hD (by rw [rloc, rarea_cast, h, Rat.cast_zero])
      have lw : low t := by
        refine ⟨nd, fun v hv => ?_⟩
        have k := lo v hv
        unfold height at k
        simp only [rloc, rarea_cast] at k
        have k : (area2 t.b t.c (loc v) * φ t.a + area2 t.c t.a (loc v) * φ t.b + area2 t.a t.b (loc v) * φ t.c) / area2 t.a t.b (loc t.c) ≤ φ v := by exact_mod_cast k
        have hE : area2 t.a t.b (loc t.c) ≠ 0 := nd
        unfold tilt
        generalize area2 t.a t.b (loc t.c) = E at k hE ⊢
        generalize area2 t.b t.c (loc v) * φ t.a + area2 t.c t.a (loc v) * φ t.b + area2 t.a t.b (loc v) * φ t.c = B at k ⊢
        have : E * (E * φ v - B) = E * E * (φ v - B / E) := by field_simp
        rw [this]
        exact mul_nonneg (mul_self_nonneg E) (by linarith)
      obtain ⟨t', ht', e⟩ := all t (List.mem_filter.mpr ⟨ht, by simpa using lw⟩)
      exact ⟨t', ht', openTri_perm (vlist_perm (sub t' ht').2.1 nd e.symm) hqt⟩
    obtain ⟨t, ht, e0, he0, hi⟩ := near_interior cover hq (s := 1) one_ne_zero
    have ho : Owns t q := ⟨e0, he0, fun e h1 h2 => by simpa using hi e h1 h2⟩
    exact ⟨t, ht, closed_norm ((owns_iff (sub t ht).2.1 _).mp ho)⟩

/-- Every Delaunay triangulation contains each triangle with all other points outside its circle. -/
theorem Tiling.strict {P : List Pt} {T : List Tri} (D : Tiling P T) {t : Tri} {o : P2} (ha : t.a ∈ P) (hb : t.b ∈ P) (hc : t.c ∈ P) (nd : NonDegenerate t) (ho : Centre t o)
    (out : ∀ v ∈ P, ¬ IsVertex t v → d2 o t.a < d2 o v) : ∃ t' ∈ T, verts t' = verts t := by
  have hD : rarea t.a t.b (rloc t.c) ≠ 0 := by
    rw [rloc, rarea_cast]
    exact_mod_cast nd
  obtain ⟨t', ht', hq⟩ := D.cover ⟨((t.a.x : ℚ) + t.b.x + t.c.x) / 3, ((t.a.y : ℚ) + t.b.y + t.c.y) / 3⟩ (by
    refine mem_interior.mpr ⟨openTri t, openTri_hull (mem_allTris.mpr ⟨ha, hb, hc⟩), openTri_open _, ?_⟩
    refine mem_openTri.mpr ⟨hD, 1 / 3, 1 / 3, 1 / 3, by norm_num, by norm_num, by norm_num, ⟨by norm_num, ?_, ?_⟩⟩ <;> (push_cast; ring))
  refine ⟨t', ht', ?_⟩
  have nd' := D.nondeg t' ht'
  obtain ⟨o', ho'⟩ := centre_exists nd'
  obtain ⟨l, m, n, hl, hm, hn, s, ex, ey⟩ := closed_weights nd' hq
  simp only at ex ey
  -- the power difference of the two circles
  obtain ⟨al, be, ga, lin⟩ : ∃ al be ga : ℚ, ∀ v : Pt, al * v.x + be * v.y + ga = (d2 o v - d2 o t.a) - (d2 o' v - d2 o' t'.a) := by
    refine ⟨2 * (o'.x - o.x), 2 * (o'.y - o.y), o.x ^ 2 + o.y ^ 2 - o'.x ^ 2 - o'.y ^ 2 - d2 o t.a + d2 o' t'.a, fun v => ?_⟩
    have e : ∀ p : P2, d2 p v = p.x ^ 2 + p.y ^ 2 - 2 * p.x * v.x - 2 * p.y * v.y + v.x ^ 2 + v.y ^ 2 := by intro p; unfold d2; ring
    rw [e o, e o']
    ring
  have on : ∀ v, IsVertex t v → d2 o v = d2 o t.a := fun v hv => centre_eq ho hv
  have on' : ∀ v, IsVertex t' v → d2 o' v = d2 o' t'.a := fun v hv => centre_eq ho' hv
  have le' : ∀ v ∈ P, d2 o' t'.a ≤ d2 o' v := fun v hv => not_lt.mp fun h => D.empty t' ht' v hv ⟨o', ho', h⟩
  have le : ∀ v ∈ P, d2 o t.a ≤ d2 o v := fun v hv => by
    by_cases h : IsVertex t v
    · exact (on v h).ge
    · exact (out v hv h).le
  have neg : ∀ v ∈ P, IsVertex t v → al * v.x + be * v.y + ga ≤ 0 := fun v hv h => by rw [lin, on v h]; linarith [le' v hv]
  have pos : ∀ v, IsVertex t' v → 0 ≤ al * v.x + be * v.y + ga := fun v h => by rw [lin, on' v h]; linarith [le v (D.vertex t' ht' v h)]
  have na := neg t.a ha (Or.inl rfl)
  have nb := neg t.b hb (Or.inr (Or.inl rfl))
  have nc := neg t.c hc (Or.inr (Or.inr rfl))
  have pa := mul_nonneg hl (pos t'.a (Or.inl rfl))
  have pb := mul_nonneg hm (pos t'.b (Or.inr (Or.inl rfl)))
  have pc := mul_nonneg hn (pos t'.c (Or.inr (Or.inr rfl)))
  have eq : (al * t.a.x + be * t.a.y + ga) + (al * t.b.x + be * t.b.y + ga) + (al * t.c.x + be * t.c.y + ga) =
      3 * (l * (al * t'.a.x + be * t'.a.y + ga) + m * (al * t'.b.x + be * t'.b.y + ga) + n * (al * t'.c.x + be * t'.c.y + ga)) := by
    linear_combination (3 * al) * ex + (3 * be) * ey - (3 * ga) * s
  have za : al * t.a.x + be * t.a.y + ga = 0 := by linarith
  have zb : al * t.b.x + be * t.b.y + ga = 0 := by linarith
  have zc : al * t.c.x + be * t.c.y + ga = 0 := by linarith
  have zero : ∀ v : Pt, al * v.x + be * v.y + ga = 0 := by
    intro v
    have : area2 t.a t.b (loc t.c) * (al * v.x + be * v.y + ga) =
        area2 t.b t.c (loc v) * (al * t.a.x + be * t.a.y + ga) + area2 t.c t.a (loc v) * (al * t.b.x + be * t.b.y + ga) + area2 t.a t.b (loc v) * (al * t.c.x + be * t.c.y + ga) := by
      unfold area2 loc; ring
    rw [za, zb, zc, mul_zero, mul_zero, mul_zero, add_zero, add_zero] at this
    exact (mul_eq_zero.mp this).resolve_left nd
  have sub : verts t' ⊆ verts t := fun v hv => by
    rw [mem_verts] at hv ⊢
    by_contra hn
    have h1 := out v (D.vertex t' ht' v hv) hn
    have h2 := lin v
    rw [zero v, on' v hv] at h2
    linarith
  have c : ∀ {t : Tri}, NonDegenerate t → (verts t).card = 3 := by
    intro t h
    obtain ⟨a, b, c⟩ := nondeg_ne (a := t.a) (b := t.b) (c := t.c) h
    unfold verts
    rw [Finset.card_eq_three]
    exact ⟨_, _, _, a, c, b, rfl⟩
  exact Finset.eq_of_subset_of_card_le sub (by rw [c nd, c nd'])

/-! ### A library -/

/-- A Delaunay triangulation of the points. -/
noncomputable def someTiling (P : List Pt) : List Tri := (tiling_exists P).choose

theorem someTiling_ok (P : List Pt) : Tiling P (someTiling P) := (tiling_exists P).choose_spec

open Classical in
/-- A library that returns it. -/
noncomputable def tilingLib (P : List Pt) : List Nat := ((someTiling P).map fun t => (P.idxOf t.a, P.idxOf t.b, P.idxOf t.c)).flatMap fun x => [x.1, x.2.1, x.2.2]

open Classical in
theorem idxOf_get {P : List Pt} {v : Pt} (h : v ∈ P) : P[P.idxOf v]? = some v := by
  rw [List.getElem?_eq_getElem (List.idxOf_lt_length_of_mem h), List.getElem_idxOf]

open Classical in
theorem tilingLib_nth {P : List Pt} {i a b c : Nat} (e : nthTriple (tilingLib P) i = some (a, b, c)) :
    ∃ t, (someTiling P)[i]? = some t ∧ P[a]? = some t.a ∧ P[b]? = some t.b ∧ P[c]? = some t.c := by
  unfold tilingLib at e
  rw [nthTriple_flat, List.getElem?_map, Option.map_eq_some_iff] at e
  obtain ⟨t, ht, e⟩ := e
  obtain ⟨rfl, rfl, rfl⟩ : _ ∧ _ ∧ _ := by simpa using e
  have V := (someTiling_ok P).vertex t (List.mem_of_getElem? ht)
  exact ⟨t, ht, idxOf_get (V _ (Or.inl rfl)), idxOf_get (V _ (Or.inr (Or.inl rfl))), idxOf_get (V _ (Or.inr (Or.inr rfl)))⟩

open Classical in
/-- It meets the assumptions made elsewhere. -/
theorem tilingLib_ok : LibOnce tilingLib := by
  have same : ∀ {P : List Pt} {i a b c : Nat} {t : Tri}, nthTriple (tilingLib P) i = some (a, b, c) → P[a]? = some t.a → P[b]? = some t.b → P[c]? = some t.c →
      (someTiling P)[i]? = some t := by
    intro P i a b c t e a1 b1 c1
    obtain ⟨t', ht, a2, b2, c2⟩ := tilingLib_nth e
    rw [a1, Option.some.injEq] at a2
    rw [b1, Option.some.injEq] at b2
    rw [c1, Option.some.injEq] at c2
    obtain ⟨x, y, z⟩ := t
    obtain ⟨x', y', z'⟩ := t'
    simp only at a2 b2 c2
    subst a2 b2 c2
    exact ht
  refine ⟨⟨?_, ?_, ?_⟩, ?_⟩
  · intro P k hk
    unfold tilingLib at hk
    obtain ⟨x, hx, hk⟩ := List.mem_flatMap.mp hk
    obtain ⟨t, ht, rfl⟩ := List.mem_map.mp hx
    have V := (someTiling_ok P).vertex t ht
    simp only [List.mem_cons, List.not_mem_nil, or_false] at hk
    rcases hk with rfl | rfl | rfl
    exacts [List.idxOf_lt_length_of_mem (V _ (Or.inl rfl)), List.idxOf_lt_length_of_mem (V _ (Or.inr (Or.inl rfl))), List.idxOf_lt_length_of_mem (V _ (Or.inr (Or.inr rfl)))]
  · rintro P t ⟨i, a, b, c, e, a1, b1, c1⟩
    have := List.mem_of_getElem? (same e a1 b1 c1)
    exact ⟨(someTiling_ok P).nondeg t this, (someTiling_ok P).empty t this⟩
  · intro P t o ha hb hc nd ho out
    obtain ⟨t', ht', e⟩ := (someTiling_ok P).strict ha hb hc nd ho out
    obtain ⟨i, hi⟩ := List.mem_iff_getElem?.mp ht'
    have V := (someTiling_ok P).vertex t' ht'
    refine ⟨t', ⟨i, P.idxOf t'.a, P.idxOf t'.b, P.idxOf t'.c, ?_, idxOf_get (V _ (Or.inl rfl)), idxOf_get (V _ (Or.inr (Or.inl rfl))), idxOf_get (V _ (Or.inr (Or.inr rfl)))⟩, e⟩
    unfold tilingLib
    rw [nthTriple_flat, List.getElem?_map, hi]
    rfl
  · intro P i j a b c a' b' c' t t' e e' a1 b1 c1 a2 b2 c2 hv
    have h1 := same e a1 b1 c1
    have h2 := same e' a2 b2 c2
    obtain ⟨hi, ei⟩ := List.getElem?_eq_some_iff.mp h1
    obtain ⟨hj, ej⟩ := List.getElem?_eq_some_iff.mp h2
    have A := List.pairwise_iff_getElem.mp (someTiling_ok P).apart
    by_contra hne
    rcases Nat.lt_or_gt_of_ne hne with hlt | hlt
    · have := (A i j hi hj hlt).ne ((someTiling_ok P).nondeg _ (List.getElem_mem hi))
      rw [ei, ej] at this
      exact this hv
    · have := (A j i hj hi hlt).ne ((someTiling_ok P).nondeg _ (List.getElem_mem hj))
      rw [ei, ej] at this
      exact this hv.symm

/-- With this library `Triangulate` returns the triangulation. -/
theorem tilingLib_triangulate (fl : ℚ → ℚ) (w h : Nat) (ps : List NP) : triangulate tilingLib fl w h ps = some (someTiling (ps.map (groupPoint fl w h))) := by
  obtain ⟨T, hT, len, idx⟩ := c80_triangulate tilingLib tilingLib_ok.ok fl w h ps
  rw [hT, Option.some.injEq]
  refine List.ext_getElem? fun i => ?_
  by_cases hi : i < T.length
  · obtain ⟨a, b, c, p, q, r, e, a1, b1, c1, et⟩ := idx i _ (List.getElem?_eq_getElem hi)
    obtain ⟨t, ht, a2, b2, c2⟩ := tilingLib_nth e
    rw [List.getElem?_map, a1] at a2
    rw [List.getElem?_map, b1] at b2
    rw [List.getElem?_map, c1] at c2
    simp only [Option.map_some, Option.some.injEq] at a2 b2 c2
    rw [ht, List.getElem?_eq_getElem hi, et, a2, b2, c2]
  · have l2 : (tilingLib (ps.map (groupPoint fl w h))).length = 3 * (someTiling (ps.map (groupPoint fl w h))).length := by
      unfold tilingLib
      simp [List.length_flatMap, Function.comp_def, Nat.mul_comm]
    rw [l2, Nat.mul_div_cancel_left _ (by norm_num)] at len
    rw [List.getElem?_eq_none (by omega), List.getElem?_eq_none (by omega)]

/-! ### C108 -/

/-- **C108**: every list of points has a Delaunay triangulation, and a library that returns one for every list, each triangle once, exists. -/
theorem c108_library : ∃ lib, LibOnce lib ∧ ∀ fl w h ps, ∃ T, triangulate lib fl w h ps = some T ∧ Tiling (ps.map (groupPoint fl w h)) T :=
  ⟨tilingLib, tilingLib_ok, fun fl w h ps => ⟨_, tilingLib_triangulate fl w h ps, someTiling_ok _⟩⟩

/-- **C108**: if `Triangulate` returns a Delaunay triangulation, every triangle of the points with all other points outside its circle is one of the triangles. -/
theorem c108_strict {lib : List Pt → List Nat} {fl : ℚ → ℚ} {w h : Nat} {ps : List NP} {T : List Tri} (_hT : triangulate lib fl w h ps = some T) (D : Tiling (ps.map (groupPoint fl w h)) T)
    {t : Tri} {o : P2} (hv : ∀ v, IsVertex t v → v ∈ ps.map (groupPoint fl w h)) (nd : NonDegenerate t) (ho : Centre t o)
    (out : ∀ v ∈ ps.map (groupPoint fl w h), ¬ IsVertex t v → d2 o t.a < d2 o v) : ∃ t' ∈ T, verts t' = verts t :=
  D.strict (hv _ (Or.inl rfl)) (hv _ (Or.inr (Or.inl rfl))) (hv _ (Or.inr (Or.inr rfl))) nd ho out

/-- **C108**: for points of which no four are on a circle two libraries that return Delaunay triangulations return the same triangles, up to the order of triangles and vertices. -/
theorem c108_unique {lib lib' : List Pt → List Nat} {fl : ℚ → ℚ} {w h : Nat} {ps : List NP} {T T' : List Tri} (_hT : triangulate lib fl w h ps = some T)
    (_hT' : triangulate lib' fl w h ps = some T') (D : Tiling (ps.map (groupPoint fl w h)) T) (D' : Tiling (ps.map (groupPoint fl w h)) T')
    (G : GeneralPosition (· ∈ ps.map (groupPoint fl w h))) : (T.map verts).Perm (T'.map verts) := by
  have half : ∀ {T T' : List Tri}, Tiling (ps.map (groupPoint fl w h)) T → Tiling (ps.map (groupPoint fl w h)) T' → ∀ x, x ∈ T.map verts → x ∈ T'.map verts := by
    intro T T' D D' x hx
    obtain ⟨t, ht, rfl⟩ := List.mem_map.mp hx
    have nd := D.nondeg t ht
    have V := D.vertex t ht
    obtain ⟨o, ho⟩ := centre_exists nd
    obtain ⟨t', ht', e⟩ := D'.strict (V _ (Or.inl rfl)) (V _ (Or.inr (Or.inl rfl))) (V _ (Or.inr (Or.inr rfl))) nd ho (by
      intro v hv hn
      refine lt_of_le_of_ne (not_lt.mp fun hlt => D.empty t ht v hv ⟨o, ho, hlt⟩) fun he => hn ?_
      exact G t.a t.b t.c v (V _ (Or.inl rfl)) (V _ (Or.inr (Or.inl rfl))) (V _ (Or.inr (Or.inr rfl))) hv ⟨o, ho, he.symm⟩ nd)
    exact List.mem_map.mpr ⟨t', ht', e⟩
  exact (List.perm_ext_iff_of_nodup D.distinct D'.distinct).mpr fun x => ⟨half D D' x, half D' D x⟩

/-- **C107** for a library that always returns Delaunay triangulations (partial: as above): the probability that the picture of `n` random points is poor is at most `a b (1 - 1 / a b) ^ n`. -/
theorem c107_library_partial {N a b n w h : Nat} {lib : List Pt → List Nat} {ρ η z : ℚ} {f : Nat → Nat → Fin 256 × Fin 256 × Fin 256}
    (L : ∀ ps, ∃ T, triangulate lib (rne 53) w h ps = some T ∧ Tiling (ps.map (groupPoint (rne 53) w h)) T) (hN : 0 < N) (da : a ∣ N) (db : b ∣ N) (hw1 : 1 ≤ w) (hh1 : 1 ≤ h)
    (hw : w ≤ 32767) (hh : h ≤ 32767) (hwh : w * h ≤ 6800000) (hr : 0 < ρ) (mw : 4 * ρ ≤ w)
    (hρ : ((w : ℚ) / a + 51 / 100) ^ 2 + ((h : ℚ) / b + 51 / 100) ^ 2 ≤ ρ ^ 2) (E : Gentle (ofBytes (rne 53) w h f) (9 * ρ) η) :
    ways N (2 * n) (fun u => ¬ ∃ T out cs, triangulate lib (rne 53) w h (genRandom (drawn N u fun _ => 0) n (0, 0)) = some T ∧
      trianglesOnImage (rne 53) z (ofBytes (rne 53) w h f) T = some out ∧ out.map Prod.snd = cs.map some ∧
        (1 - 4 * ρ / w) * (1 - 4 * ρ / h) - η - 1 / 50000 ≤ quality z (ofBytes (rne 53) w h f) T cs) ≤ a * b * (N ^ 2 - N / a * (N / b)) ^ n := by
  refine le_trans (ways_le hN fun u _ no => ?_) (c107_generate_partial (lib := lib) (z := z) hN da db hw1 hh1 hw hh hwh hr mw hρ E)
  obtain ⟨T, hT, D⟩ := L (genRandom (drawn N u fun _ => 0) n (0, 0))
  exact ⟨fun _ => 0, T, hT, D, fun ⟨out, cs, o1, o2, o3⟩ => no ⟨T, out, cs, hT, o1, o2, o3⟩⟩

/-! ### Cases -/

theorem fivePoints_pix : fivePoints.map (groupPoint (rne 53) 40 30) = [⟨0, 4⟩, ⟨35, 8⟩, ⟨10, 26⟩, ⟨20, 11⟩, ⟨40, 30⟩] := by decide +kernel

/-- The assumptions of `c108_strict` hold of a triangle of `fivePoints` and the centre of its circle. -/
example : ∃ T t', triangulate tilingLib (rne 53) 40 30 fivePoints = some T ∧ t' ∈ T ∧ verts t' = verts ⟨⟨0, 4⟩, ⟨10, 26⟩, ⟨20, 11⟩⟩ := by
  obtain ⟨t', h1, h2⟩ := c108_strict (tilingLib_triangulate (rne 53) 40 30 fivePoints) (someTiling_ok _) (t := ⟨⟨0, 4⟩, ⟨10, 26⟩, ⟨20, 11⟩⟩) (o := ⟨579 / 74, 1015 / 74⟩)
    (by rw [fivePoints_pix]; unfold IsVertex; simp) (by unfold NonDegenerate area2 loc; norm_num) (by unfold Centre d2; norm_num)
    (by rw [fivePoints_pix]; unfold IsVertex d2; simp; norm_num)
  exact ⟨_, t', tilingLib_triangulate _ _ _ _, h1, h2⟩

/-- The assumptions of `c108_unique` hold of `fivePoints` and two libraries. -/
example : ∃ T T', triangulate tilingLib (rne 53) 40 30 fivePoints = some T ∧ triangulate onceLib (rne 53) 40 30 fivePoints = some T' ∧ (T.map verts).Perm (T'.map verts) := by
  have G : GeneralPosition (· ∈ fivePoints.map (groupPoint (rne 53) 40 30)) := general_of (fun _ h => h) (by decide +kernel)
  obtain ⟨T', h', -⟩ := c80_triangulate onceLib onceLib_ok.ok (rne 53) 40 30 fivePoints
  exact ⟨_, T', tilingLib_triangulate _ _ _ _, h', c108_unique (tilingLib_triangulate _ _ _ _) h' (someTiling_ok _) (library_tiling onceLib_ok G h') G⟩

/-- C108: the library also triangulates the points of the square grid, and the triangles fill the square (C106). -/
example : ∃ T, triangulate tilingLib (rne 53) 12 12 evenPoints = some T ∧ MeasureTheory.volume (hull evenPts) = ENNReal.ofReal (((T.map area).sum : ℚ) : ℝ) := by
  refine ⟨_, tilingLib_triangulate _ _ _ _, ?_⟩
  have := (c106_area (tilingLib_triangulate (rne 53) 12 12 evenPoints) (someTiling_ok _)).1
  rwa [evenPoints_pix] at this ⊢

/-- C107: with this library the probability that the picture of 10000 random points on a grey image of 1000 x 1000 pixels has a quality below 2/3 is at most 1/10. -/
example : 10 * ways (2 ^ 53) (2 * 10000) (fun u => ¬ ∃ T out cs, triangulate tilingLib (rne 53) 1000 1000 (genRandom (drawn (2 ^ 53) u fun _ => 0) (10000 : Nat) (0, 0)) = some T ∧
    trianglesOnImage (rne 53) 0 (theImage greyLarge) T = some out ∧ out.map Prod.snd = cs.map some ∧ 2 / 3 ≤ quality 0 (theImage greyLarge) T cs) ≤ (2 ^ 53) ^ (2 * 10000) := by
  have c := c107_library_partial (lib := tilingLib) (z := 0) (n := 10000) (N := 2 ^ 53) (a := 2 ^ 5) (b := 2 ^ 5) (w := 1000) (h := 1000) (f := upperBytes greyLarge) (ρ := 45) (η := 0)
    (fun ps => ⟨_, tilingLib_triangulate _ _ _ _, someTiling_ok _⟩) (by positivity) (pow_dvd_pow 2 (by norm_num)) (pow_dvd_pow 2 (by norm_num)) (by norm_num) (by norm_num) (by norm_num)
    (by norm_num) (by norm_num) (by norm_num) (by norm_num) (by norm_num) (greyLarge_gentle _)
  refine le_trans (Nat.mul_le_mul_left _ (le_trans (ways_le (by positivity) ?_) c)) (seldom_one 10000 (by decide +kernel))
  rintro u - no ⟨T, out, cs, o0, o1, o2, o3⟩
  exact no ⟨T, out, cs, o0, o1, o2, le_trans (by norm_num) o3⟩

end Verif.Props

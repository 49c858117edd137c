import Verif.Spec.Voronoi
import Verif.Tri.Local
import Verif.Incr.Facts
import Verif.Incr.GridOK
import Verif.Vor.Model

/-!
# Corners of the Voronoi cells are the circumcentres of the triangulation
-/

namespace Verif.Vor

open Verif.Incr hiding trunc step run Entry
open Verif.Tri Verif.Spec Verif.Float

/-- Three different points on a circle are not on a line. -/
theorem circle_noncollinear {q u v : Pt} {o : P2} (h1 : u ≠ q) (h2 : v ≠ q) (h3 : u ≠ v) (e1 : d2 o u = d2 o q) (e2 : d2 o v = d2 o q) :
    ori (toP q) (toP u) (toP v) ≠ 0 := by
  intro hz
  unfold ori toP at hz
  unfold d2 at e1 e2
  simp only at hz
  set ax : ℚ := u.x - q.x with hax
  set ay : ℚ := u.y - q.y with hay
  set bx : ℚ := v.x - q.x with hbx
  set b_y : ℚ := v.y - q.y with hby
  set ox : ℚ := o.x - q.x with hox
  set oy : ℚ := o.y - q.y with hoy
  have f1 : ax ^ 2 + ay ^ 2 = 2 * (ox * ax + oy * ay) := by rw [hax, hay, hox, hoy]; linarith
  have f2 : bx ^ 2 + b_y ^ 2 = 2 * (ox * bx + oy * b_y) := by rw [hbx, hby, hox, hoy]; linarith
  have hz' : ax * b_y - ay * bx = 0 := by linarith
  have pos : ∀ x y : ℤ, (x ≠ 0 ∨ y ≠ 0) → 0 < (x : ℚ) ^ 2 + (y : ℚ) ^ 2 := by
    intro x y hxy
    have a1 := sq_nonneg (x : ℚ)
    have a2 := sq_nonneg (y : ℚ)
    rcases hxy with h | h
    · have : 0 < (x : ℚ) ^ 2 := by positivity
      linarith
    · have : 0 < (y : ℚ) ^ 2 := by positivity
      linarith
  have ne : ∀ {a b : Pt}, a ≠ b → a.x - b.x ≠ 0 ∨ a.y - b.y ≠ 0 := by
    intro a b hab
    by_contra hn
    push Not at hn
    exact hab (Pt.ext (by omega) (by omega))
  have pa : 0 < ax ^ 2 + ay ^ 2 := by have := pos _ _ (ne h1); push_cast at this; exact this
  have pb : 0 < bx ^ 2 + b_y ^ 2 := by have := pos _ _ (ne h2); push_cast at this; exact this
  have pc : 0 < (ax - bx) ^ 2 + (ay - b_y) ^ 2 := by
    have := pos _ _ (ne h3); push_cast at this
    calc 0 < _ := this
      _ = _ := by rw [hax, hbx, hay, hby]; ring
  have k1 : (ax ^ 2 + ay ^ 2) * ((bx ^ 2 + b_y ^ 2) - (ax * bx + ay * b_y)) = 0 := by
    have : (ax ^ 2 + ay ^ 2) * ((bx ^ 2 + b_y ^ 2) - (ax * bx + ay * b_y)) =
      (ax ^ 2 + ay ^ 2) * ((bx ^ 2 + b_y ^ 2) - 2 * (ox * bx + oy * b_y)) -
        (ax * bx + ay * b_y) * ((ax ^ 2 + ay ^ 2) - 2 * (ox * ax + oy * ay)) +
        2 * (ax * b_y - ay * bx) * (ax * oy - ay * ox) := by ring
    rw [this, f1, f2, hz']; ring
  have k2 : (bx ^ 2 + b_y ^ 2) * ((ax ^ 2 + ay ^ 2) - (ax * bx + ay * b_y)) = 0 := by
    have : (bx ^ 2 + b_y ^ 2) * ((ax ^ 2 + ay ^ 2) - (ax * bx + ay * b_y)) =
      (bx ^ 2 + b_y ^ 2) * ((ax ^ 2 + ay ^ 2) - 2 * (ox * ax + oy * ay)) -
        (ax * bx + ay * b_y) * ((bx ^ 2 + b_y ^ 2) - 2 * (ox * bx + oy * b_y)) -
        2 * (ax * b_y - ay * bx) * (bx * oy - b_y * ox) := by ring
    rw [this, f1, f2, hz']; ring
  have m1 := (mul_eq_zero.mp k1).resolve_left pa.ne'
  have m2 := (mul_eq_zero.mp k2).resolve_left pb.ne'
  have : (ax - bx) ^ 2 + (ay - b_y) ^ 2 = 0 := by linarith
  exact pc.ne' this

theorem centre_unique {t : Tri} (nd : NonDegenerate t) {o o' : P2} (h : Centre t o) (h' : Centre t o') : o = o' := by
  unfold Centre d2 at h h'
  unfold NonDegenerate area2 loc at nd
  simp only at nd
  obtain ⟨a1, a2⟩ := h
  obtain ⟨b1, b2⟩ := h'
  have c1 : (o.x - o'.x) * (t.b.x - t.a.x) + (o.y - o'.y) * (t.b.y - t.a.y) = 0 := by linarith
  have c2 : (o.x - o'.x) * (t.c.x - t.a.x) + (o.y - o'.y) * (t.c.y - t.a.y) = 0 := by linarith
  have x0 : (((t.b.x : ℚ) - t.a.x) * (t.c.y - t.a.y) - (t.b.y - t.a.y) * (t.c.x - t.a.x)) * (o.x - o'.x) = 0 := by
    linear_combination (t.c.y - t.a.y : ℚ) * c1 - (t.b.y - t.a.y : ℚ) * c2
  have y0 : (((t.b.x : ℚ) - t.a.x) * (t.c.y - t.a.y) - (t.b.y - t.a.y) * (t.c.x - t.a.x)) * (o.y - o'.y) = 0 := by
    linear_combination (t.b.x - t.a.x : ℚ) * c2 - (t.c.x - t.a.x : ℚ) * c1
  have x1 := (mul_eq_zero.mp x0).resolve_left nd
  have y1 := (mul_eq_zero.mp y0).resolve_left nd
  ext <;> linarith

theorem toP_site {w h : Nat} {s : Multiset Pt} {y : P2} (hy : VS s y ∨ (norm (newSuperTriangle w h)).Has y) :
    ∃ x, Site w h s x ∧ y = toP x := by
  rcases hy with ⟨p, hp, rfl⟩ | hy
  · exact ⟨p, Or.inl hp, rfl⟩
  · rcases (norm_has _ _).mp hy with e | e | e
    · exact ⟨_, Or.inr (Or.inl rfl), e⟩
    · exact ⟨_, Or.inr (Or.inr (Or.inl rfl)), e⟩
    · exact ⟨_, Or.inr (Or.inr (Or.inr rfl)), e⟩

theorem site_toP {w h : Nat} {s : Multiset Pt} {x : Pt} (hx : Site w h s x) :
    VS s (toP x) ∨ (norm (newSuperTriangle w h)).Has (toP x) := by
  rcases hx with hx | hx
  · exact Or.inl ⟨x, hx, rfl⟩
  · exact Or.inr ((isVertex_iff _ _).mp hx)

variable {g : Geo} {w h : Nat} {d : D} {s : Multiset Pt}

theorem corner_of_tri (I : DInv g w h d s) {t : Tri} (ht : t ∈ live d) {q : Pt} (hq : t.hasVertex q = true) {o : P2} (hc : Centre t o) :
    Corner w h s q o := by
  have nd := I.nondeg ht
  have site : ∀ v, IsVertex t v → Site w h s v := fun v hv => (I.vertex_iff v).mp ⟨t, ht, hv⟩
  obtain ⟨n1, n2, n3⟩ := nondeg_ne (a := t.a) (b := t.b) (c := t.c) (by exact nd)
  have sa := site t.a (Or.inl rfl)
  have sb := site t.b (Or.inr (Or.inl rfl))
  have sc := site t.c (Or.inr (Or.inr rfl))
  obtain ⟨c1, c2⟩ := hc
  have hdel : ∀ x, Site w h s x → d2 o t.a ≤ d2 o x := by
    intro x hx
    have := I.inv.del (norm t) (List.mem_map_of_mem ht) (toP x) (site_toP hx)
    rw [pow_d2 nd ⟨c1, c2⟩] at this
    linarith
  rcases (isVertex_bool t q).mp hq with rfl | rfl | rfl
  · exact ⟨⟨t.b, t.c, sb, sc, n1.symm, n3.symm, n2, c1.symm, c2.symm⟩, hdel⟩
  · exact ⟨⟨t.a, t.c, sa, sc, n1, n2.symm, n3, c1, by rw [← c1, c2]⟩, fun x hx => by rw [← c1]; exact hdel x hx⟩
  · exact ⟨⟨t.a, t.b, sa, sb, n3, n2, n1, c2, by rw [← c2, c1]⟩, fun x hx => by rw [← c2]; exact hdel x hx⟩

theorem tri_of_corner (I : DInv g w h d s) {q : Pt} (hq : Site w h s q) {o : P2} (hc : Corner w h s q o) :
    ∃ t ∈ live d, t.hasVertex q = true ∧ Centre t o := by
  obtain ⟨⟨u, v, su, sv, n1, n2, n3, e1, e2⟩, hdel⟩ := hc
  have key : ∀ u v, Site w h s u → Site w h s v → d2 o u = d2 o q → d2 o v = d2 o q → 0 < ori (toP q) (toP u) (toP v) →
      ∃ t ∈ live d, t.hasVertex q = true ∧ Centre t o := by
    intro u v su sv e1 e2 hp
    have hn : norm ⟨q, u, v⟩ = ⟨toP q, toP u, toP v⟩ := by unfold norm; rw [if_pos hp]
    have nd : NonDegenerate ⟨q, u, v⟩ := by rw [nondeg_iff, hn]; exact hp
    have hcen : Centre ⟨q, u, v⟩ o := ⟨e1.symm, e2.symm⟩
    obtain ⟨t', ht', hh, heq⟩ := circle_at I.inv (q := toP q) (u := toP u) (v := toP v) hp (by
      rintro y (rfl | rfl | rfl)
      · exact site_toP hq
      · exact site_toP su
      · exact site_toP sv) (by
      intro y hy
      obtain ⟨x, hx, rfl⟩ := toP_site hy
      rw [← hn, pow_d2 nd hcen]
      have := hdel x hx
      simp only; linarith)
    obtain ⟨t, ht, rfl⟩ := List.mem_map.mp ht'
    have ho := I.inv.ccw _ ht'
    have hz : ∀ v, (norm t).Has (toP v) → d2 o v = d2 o q := by
      intro v hv
      have := (norm t).pow_vertex ho.ne' hv
      rw [← heq, ← hn, pow_d2 nd hcen] at this
      simp only at this; linarith
    refine ⟨t, ht, (hasVertex_iff t q).mpr hh, ?_, ?_⟩
    · rw [hz _ ((norm_has t _).mpr (Or.inl rfl)), hz _ ((norm_has t _).mpr (Or.inr (Or.inl rfl)))]
    · rw [hz _ ((norm_has t _).mpr (Or.inl rfl)), hz _ ((norm_has t _).mpr (Or.inr (Or.inr rfl)))]
  rcases lt_or_gt_of_ne (circle_noncollinear n1 n2 n3 e1 e2) with hl | hg
  · refine key v u sv su e2 e1 ?_
    have : ori (toP q) (toP v) (toP u) = - ori (toP q) (toP u) (toP v) := by unfold ori; ring
    rw [this]; linarith
  · exact key u v su sv e1 e2 hg

theorem corner_iff (I : DInv g w h d s) {q : Pt} (hq : q ∈ s) (o : P2) :
    Corner w h s q o ↔ ∃ t ∈ live d, t.hasVertex q = true ∧ Centre t o :=
  ⟨tri_of_corner I (Or.inl hq), fun ⟨_, ht, hv, hc⟩ => corner_of_tri I ht hv hc⟩

/-- The stored circumcentre is the rounded centre. -/
theorem centre_stored {F : FloatOps} (k : SizeOk w h) (R : Rnd 53 F.r64) (I : DInv g w h d s) {t : Tri} (ht : t ∈ live d) {o : P2}
    (hc : Centre t o) : centre F t = stored F o := by
  have nd := I.nondeg ht
  have ok : ∀ v, (v = t.a ∨ v = t.b ∨ v = t.c) → Ok w h v := fun v hv => verts_ok I.img I.inv ht hv
  unfold centre
  rw [circ_ints k R (ok _ (Or.inl rfl)) (ok _ (Or.inr (Or.inl rfl))) (ok _ (Or.inr (Or.inr rfl))) nd]
  rw [← centre_unique nd (circ_centre nd) hc]
  rfl

end Verif.Vor

import Verif.Props.Exported
import Verif.Spec.Measure

/-!
# The exported triangles do not overlap (C98)

The triangles of `Triangulate` come from a Delaunay library.  Two Delaunay triangles are on two sides of the radical axis of their circles; so for points in general
position no pixel is visited by two of them, and their areas add up to at most the area of the image.
-/

namespace Verif.Props

open Verif.Tri Verif.Spec Verif.Float Verif.Raster Verif.Fit Verif.Small Verif.Alg
open Verif.Incr hiding trunc step run Entry

/-! ### The line between two Delaunay triangles -/

/-- A line with `t` on one side and `t'` on the other; the vertices on the line are shared. -/
structure Between (al be ga : ℚ) (t t' : Tri) : Prop where
  neg : ∀ v, IsVertex t v → al * v.x + be * v.y + ga ≤ 0
  pos : ∀ v, IsVertex t' v → 0 ≤ al * v.x + be * v.y + ga
  on : ∀ v, IsVertex t v → al * v.x + be * v.y + ga = 0 → IsVertex t' v
  on' : ∀ v, IsVertex t' v → al * v.x + be * v.y + ga = 0 → IsVertex t v

theorem Between.swap {al be ga : ℚ} {t t' : Tri} (B : Between al be ga t t') : Between (-al) (-be) (-ga) t' t := by
  refine ⟨fun v hv => ?_, fun v hv => ?_, fun v hv h => B.on' v hv (by linarith), fun v hv h => B.on v hv (by linarith)⟩
  · have := B.pos v hv; linarith
  · have := B.neg v hv; linarith

/-- The radical axis of the circles of two Delaunay triangles. -/
theorem delaunay_between {W : Pt → Prop} (G : GeneralPosition W) {t t' : Tri} (nd : NonDegenerate t) (nd' : NonDegenerate t')
    (hv : ∀ v, IsVertex t v → W v) (hv' : ∀ v, IsVertex t' v → W v) (he : ∀ v, W v → ¬ InsideCircle t v) (he' : ∀ v, W v → ¬ InsideCircle t' v) :
    ∃ al be ga, Between al be ga t t' := by
  obtain ⟨o, hc⟩ := centre_exists nd
  obtain ⟨o', hc'⟩ := centre_exists nd'
  have lin : ∀ v : Pt, (2 * (o'.x - o.x)) * v.x + (2 * (o'.y - o.y)) * v.y + (o.x ^ 2 + o.y ^ 2 - o'.x ^ 2 - o'.y ^ 2 - d2 o t.a + d2 o' t'.a) =
      (d2 o v - d2 o t.a) - (d2 o' v - d2 o' t'.a) := by
    intro v
    have e : ∀ p : P2, d2 p v = p.x ^ 2 + p.y ^ 2 - 2 * p.x * v.x - 2 * p.y * v.y + v.x ^ 2 + v.y ^ 2 := by intro p; unfold d2; ring
    rw [e o, e o']
    ring
  have eq : ∀ {t : Tri} {o : P2}, Centre t o → ∀ v, IsVertex t v → d2 o v = d2 o t.a := by
    rintro t o h v (rfl | rfl | rfl)
    exacts [rfl, h.1.symm, h.2.symm]
  have out : ∀ {t : Tri} {o : P2}, Centre t o → (∀ v, W v → ¬ InsideCircle t v) → ∀ v, W v → d2 o t.a ≤ d2 o v := by
    intro t o h hi v hw
    by_contra hlt
    exact hi v hw ⟨o, h, not_le.mp hlt⟩
  have gp : ∀ {t : Tri} {o : P2}, Centre t o → NonDegenerate t → (∀ v, IsVertex t v → W v) → ∀ v, W v → d2 o v = d2 o t.a → IsVertex t v := by
    intro t o h hn hw v hv e
    exact G t.a t.b t.c v (hw _ (Or.inl rfl)) (hw _ (Or.inr (Or.inl rfl))) (hw _ (Or.inr (Or.inr rfl))) hv ⟨o, h, e⟩ hn
  refine ⟨2 * (o'.x - o.x), 2 * (o'.y - o.y), o.x ^ 2 + o.y ^ 2 - o'.x ^ 2 - o'.y ^ 2 - d2 o t.a + d2 o' t'.a, ⟨fun v h => ?_, fun v h => ?_, fun v h z => ?_, fun v h z => ?_⟩⟩
  · rw [lin v, eq hc v h]
    have := out hc' he' v (hv v h)
    linarith
  · rw [lin v, eq hc' v h]
    have := out hc he v (hv' v h)
    linarith
  · rw [lin v, eq hc v h] at z
    exact gp hc' nd' hv' v (hv v h) (by linarith)
  · rw [lin v, eq hc' v h] at z
    exact gp hc nd hv v (hv' v h) (by linarith)

/-- Weights of a location of the closed triangle. -/
theorem closed_weights {t : Tri} (nd : NonDegenerate t) {q : P2} (hq : Closed t q) :
    ∃ l m n : ℚ, 0 ≤ l ∧ 0 ≤ m ∧ 0 ≤ n ∧ l + m + n = 1 ∧ q.x = l * t.a.x + m * t.b.x + n * t.c.x ∧ q.y = l * t.a.y + m * t.b.y + n * t.c.y := by
  have hD : area2 t.a t.b (loc t.c) ≠ 0 := nd
  have s := area2_sum t q
  have ex : area2 t.b t.c q * t.a.x + area2 t.c t.a q * t.b.x + area2 t.a t.b q * t.c.x = area2 t.a t.b (loc t.c) * q.x := by unfold area2 loc; ring
  have ey : area2 t.b t.c q * t.a.y + area2 t.c t.a q * t.b.y + area2 t.a t.b q * t.c.y = area2 t.a t.b (loc t.c) * q.y := by unfold area2 loc; ring
  generalize area2 t.a t.b (loc t.c) = D at *
  refine ⟨area2 t.b t.c q / D, area2 t.c t.a q / D, area2 t.a t.b q / D, ?_, ?_, ?_, ?_, ?_, ?_⟩
  iterate 3
    rcases hq with ⟨h1, h2, h3⟩ | ⟨h1, h2, h3⟩
    · exact div_nonneg (by assumption) (by linarith)
    · exact div_nonneg_of_nonpos (by assumption) (by linarith)
  · field_simp; linarith
  · field_simp; linarith
  · field_simp; linarith

/-- Weights of a location of the open triangle. -/
theorem interior_weights {t : Tri} {q : P2} (hq : Interior t q) :
    ∃ l m n : ℚ, 0 < l ∧ 0 < m ∧ 0 < n ∧ l + m + n = 1 ∧ q.x = l * t.a.x + m * t.b.x + n * t.c.x ∧ q.y = l * t.a.y + m * t.b.y + n * t.c.y := by
  have s := area2_sum t q
  have ex : area2 t.b t.c q * t.a.x + area2 t.c t.a q * t.b.x + area2 t.a t.b q * t.c.x = area2 t.a t.b (loc t.c) * q.x := by unfold area2 loc; ring
  have ey : area2 t.b t.c q * t.a.y + area2 t.c t.a q * t.b.y + area2 t.a t.b q * t.c.y = area2 t.a t.b (loc t.c) * q.y := by unfold area2 loc; ring
  generalize area2 t.a t.b (loc t.c) = D at *
  have hD : D ≠ 0 := by
    rcases hq with ⟨h1, h2, h3⟩ | ⟨h1, h2, h3⟩
    · have : 0 < D := by linarith
      exact this.ne'
    · have : D < 0 := by linarith
      exact this.ne
  refine ⟨area2 t.b t.c q / D, area2 t.c t.a q / D, area2 t.a t.b q / D, ?_, ?_, ?_, ?_, ?_, ?_⟩
  iterate 3
    rcases hq with ⟨h1, h2, h3⟩ | ⟨h1, h2, h3⟩
    · exact div_pos (by assumption) (by linarith)
    · exact div_pos_of_neg_of_neg (by assumption) (by linarith)
  · field_simp; linarith
  · field_simp; linarith
  · field_simp; linarith

/-- Different triangles have a vertex off the line. -/
theorem Between.off {al be ga : ℚ} {t t' : Tri} (B : Between al be ga t t') (nd : NonDegenerate t) (nd' : NonDegenerate t') (ne : verts t ≠ verts t') :
    ∃ v, IsVertex t v ∧ al * v.x + be * v.y + ga < 0 := by
  by_contra hn
  push Not at hn
  have sub : verts t ⊆ verts t' := fun v hv => by
    rw [mem_verts] at hv ⊢
    exact B.on v hv (le_antisymm (B.neg v hv) (hn v hv))
  have c : ∀ {t : Tri}, NonDegenerate t → (verts t).card = 3 := by
    intro t h
    obtain ⟨a, b, c⟩ := nondeg_ne (a := t.a) (b := t.b) (c := t.c) h
    unfold verts
    rw [Finset.card_eq_three]
    exact ⟨_, _, _, a, c, b, rfl⟩
  exact ne (Finset.eq_of_subset_of_card_le sub (by rw [c nd, c nd']))

/-- The open triangles are strictly on the two sides. -/
theorem Between.interior {al be ga : ℚ} {t t' : Tri} (B : Between al be ga t t') (nd : NonDegenerate t) (nd' : NonDegenerate t') (ne : verts t ≠ verts t') {q : P2}
    (hq : Interior t q) : al * q.x + be * q.y + ga < 0 := by
  obtain ⟨l, m, n, hl, hm, hn, s, ex, ey⟩ := interior_weights hq
  have e : al * q.x + be * q.y + ga = l * (al * t.a.x + be * t.a.y + ga) + m * (al * t.b.x + be * t.b.y + ga) + n * (al * t.c.x + be * t.c.y + ga) := by
    rw [ex, ey]; linear_combination (-ga) * s
  have ha := mul_nonpos_of_nonneg_of_nonpos hl.le (B.neg t.a (Or.inl rfl))
  have hb := mul_nonpos_of_nonneg_of_nonpos hm.le (B.neg t.b (Or.inr (Or.inl rfl)))
  have hc := mul_nonpos_of_nonneg_of_nonpos hn.le (B.neg t.c (Or.inr (Or.inr rfl)))
  obtain ⟨v, hv, lt⟩ := B.off nd nd' ne
  rw [e]
  rcases hv with rfl | rfl | rfl
  · have := mul_neg_of_pos_of_neg hl lt; linarith
  · have := mul_neg_of_pos_of_neg hm lt; linarith
  · have := mul_neg_of_pos_of_neg hn lt; linarith

/-! ### The rasterizer at a vertex -/

/-- At the lattice point of a vertex the rounded rasterizer is exact. -/
theorem vis_vertex {fl : ℚ → ℚ} (R : Rnd 53 fl) {t : Tri} (hn : NonDegenerate t) {x y : Int} (hf : ∀ v, IsVertex t v → Fit x v ∧ Small v)
    {u : Pt} (hu : IsVertex t u) (hc : corner x y = loc u) [Decidable (Owns t (corner x y))] : vis fl t x y = if Owns t (corner x y) then 1 else 0 := by
  have ho := (nondeg_iff t).mp hn
  have cx : x + 1 = u.x := by
    have := congrArg P2.x hc
    simp only [corner, loc] at this
    exact_mod_cast this
  have cy : y = u.y := by
    have := congrArg P2.y hc
    simp only [corner, loc] at this
    exact_mod_cast this
  have h1 := vis_esum (prec_rnd R) (t := t) ⟨(hf _ (Or.inl rfl)).2, (hf _ (Or.inr (Or.inl rfl))).2, (hf _ (Or.inr (Or.inr rfl))).2⟩ ho x y
  have up : ∀ a b : Pt, IsVertex t a → IsVertex t b → (u ≠ a → u ≠ b → ori (toP a) (toP b) (corner x y) ≠ 0) → a.y ≤ y → y < b.y →
      (x < trunc (edgeAt fl a b y) ↔ 0 ≤ ori (toP a) (toP b) (corner x y)) := by
    intro a b ha hb hab l1 l2
    by_cases ea : u = a
    · subst ea
      rw [cy, edgeAt_start R (hf u ha).2 b, ← cy, hc]
      have : ori (toP u) (toP b) (loc u) = 0 := by unfold ori toP loc; ring
      rw [this]
      exact ⟨fun _ => le_rfl, fun _ => by omega⟩
    · have eb : u ≠ b := by
        rintro rfl
        omega
      exact ind_rnd R (hf a ha).2 (hf b hb).2 (hf a ha).1 (hf b hb).1 l1 l2 (hab ea eb)
  have key : ∀ a b c : Pt, IsVertex t a → IsVertex t b → (u = a ∨ u = b ∨ u = c) → ori (toP a) (toP b) (toP c) ≠ 0 →
      rcP fl x y (toP a) (toP b) = cr (corner x y) (toP a) (toP b) := by
    intro a b c ha hb hu' hne
    unfold rcP
    rw [toPt_toP, toPt_toP]
    have z : u ≠ a → u ≠ b → ori (toP a) (toP b) (corner x y) ≠ 0 := by
      intro n1 n2
      rcases hu' with rfl | rfl | rfl
      exacts [absurd rfl n1, absurd rfl n2, by rw [hc]; exact hne]
    refine rc_cr (fun l1 l2 => up a b ha hb z l1 l2) (fun l1 l2 => up b a hb ha (fun n1 n2 => ?_) l1 l2)
    rw [ori_swap]
    exact neg_ne_zero.mpr (z n2 n1)
  have hD : ori (toP t.a) (toP t.b) (toP t.c) ≠ 0 := by
    have := hn
    unfold NonDegenerate at this
    rwa [area2_ori] at this
  rw [norm_edges (rcP_anti _ _ _) (cr_anti _) (key t.a t.b t.c (Or.inl rfl) (Or.inr (Or.inl rfl)) hu hD)
    (key t.b t.c t.a (Or.inr (Or.inl rfl)) (Or.inr (Or.inr rfl)) (by unfold IsVertex at hu; tauto) (by
      have : ori (toP t.b) (toP t.c) (toP t.a) = ori (toP t.a) (toP t.b) (toP t.c) := by unfold ori; ring
      rwa [this]))
    (key t.c t.a t.b (Or.inr (Or.inr rfl)) (Or.inl rfl) (by unfold IsVertex at hu; tauto) (by
      have : ori (toP t.c) (toP t.a) (toP t.b) = ori (toP t.a) (toP t.b) (toP t.c) := by unfold ori; ring
      rwa [this])), esum_cr _ ho] at h1
  have := owns_iff hn (corner x y)
  by_cases hO : Owns t (corner x y)
  · rw [if_pos hO]; rw [if_pos (this.mp hO)] at h1; exact_mod_cast h1
  · rw [if_neg hO]; rw [if_neg (fun k => hO (this.mpr k))] at h1; exact_mod_cast h1

/-- Two triangles with a line between them visit no pixel both: a pixel at a shared vertex. -/
theorem Between.vertex {al be ga : ℚ} {t t' : Tri} (B : Between al be ga t t') (nd : NonDegenerate t) (nd' : NonDegenerate t') (ne : verts t ≠ verts t')
    {fl : ℚ → ℚ} (R : Rnd 53 fl) {x y : Int} (hf : ∀ v, IsVertex t v → Fit x v ∧ Small v) (hf' : ∀ v, IsVertex t' v → Fit x v ∧ Small v)
    {u : Pt} (hu : IsVertex t u) (hu' : IsVertex t' u) (hc : corner x y = loc u) (h1 : vis fl t x y ≠ 0) (h2 : vis fl t' x y ≠ 0) : False := by
  classical
  rw [vis_vertex R nd hf hu hc] at h1
  rw [vis_vertex R nd' hf' hu' hc] at h2
  have o1 : Owns t (corner x y) := by by_contra hO; rw [if_neg hO] at h1; exact h1 rfl
  have o2 : Owns t' (corner x y) := by by_contra hO; rw [if_neg hO] at h2; exact h2 rfl
  obtain ⟨e, e0, i⟩ := o1
  obtain ⟨e', e0', i'⟩ := o2
  have a := B.interior nd nd' ne (i _ (lt_min e0 e0') (min_le_left _ _))
  have b := B.swap.interior nd' nd ne.symm (i' _ (lt_min e0 e0') (min_le_right _ _))
  linarith

/-- Two triangles with a line between them and two vertices of one on the line: they are on opposite sides of a shared edge. -/
theorem Between.shared {al be ga : ℚ} {t t' : Tri} (B : Between al be ga t t') (nd : NonDegenerate t) (nd' : NonDegenerate t') (ne : verts t ≠ verts t')
    {u v p : Pt} (hp : [u, v, p].Perm [t.a, t.b, t.c]) (zu : al * u.x + be * u.y + ga = 0) (zv : al * v.x + be * v.y + ga = 0) (np : al * p.x + be * p.y + ga < 0) :
    ∃ r, [u, v, r].Perm [t'.a, t'.b, t'.c] ∧ Opposite u v p r := by
  have mem : ∀ {r : Pt}, r ∈ [u, v, p] → IsVertex t r := fun {r} hr => by
    have := hp.subset hr
    simpa [IsVertex] using this
  have iu := B.on u (mem (by simp)) zu
  have iv := B.on v (mem (by simp)) zv
  have nodup : [u, v, p].Nodup := hp.nodup_iff.mpr (by
    obtain ⟨a, b, c⟩ := nondeg_ne (a := t.a) (b := t.b) (c := t.c) nd
    simp [a, b, c])
  have uv : u ≠ v := by
    simp only [List.nodup_cons, List.mem_cons, not_or] at nodup
    exact nodup.1.1
  obtain ⟨r, hr⟩ : ∃ r, [u, v, r].Perm [t'.a, t'.b, t'.c] := by
    rcases iu with rfl | rfl | rfl <;> rcases iv with rfl | rfl | rfl
    · exact absurd rfl uv
    · exact ⟨t'.c, List.Perm.refl _⟩
    · exact ⟨t'.b, (List.Perm.swap _ _ _).cons _⟩
    · exact ⟨t'.c, List.Perm.swap _ _ _⟩
    · exact absurd rfl uv
    · exact ⟨t'.a, ((List.Perm.swap _ _ _).cons _).trans (List.Perm.swap _ _ _)⟩
    · exact ⟨t'.b, (List.Perm.swap _ _ _).trans ((List.Perm.swap _ _ _).cons _)⟩
    · exact ⟨t'.a, (((List.Perm.swap _ _ _).cons _).trans (List.Perm.swap _ _ _)).trans ((List.Perm.swap _ _ _).cons _)⟩
    · exact absurd rfl uv
  have ir : IsVertex t' r := by
    have := hr.subset (show r ∈ [u, v, r] by simp)
    simpa [IsVertex] using this
  have pr : 0 < al * r.x + be * r.y + ga := by
    refine lt_of_le_of_ne (B.pos r ir) fun z => ?_
    obtain ⟨k, hk, lt⟩ := B.swap.off nd' nd ne.symm
    have : k ∈ [u, v, r] := hr.symm.subset (by simpa [IsVertex] using hk)
    simp only [List.mem_cons, List.not_mem_nil, or_false] at this
    rcases this with rfl | rfl | rfl <;> linarith
  have hD : area2 u v (loc p) ≠ 0 := by
    have h0 := (iori_nondeg t).mp nd
    have : iori u v p ≠ 0 := by
      rcases perm_three hp with ⟨h1, h2, h3⟩ | ⟨h1, h2, h3⟩ | ⟨h1, h2, h3⟩ | ⟨h1, h2, h3⟩ | ⟨h1, h2, h3⟩ | ⟨h1, h2, h3⟩ <;>
        rw [h1, h2, h3] <;> intro hz <;> apply h0 <;> unfold iori at hz ⊢ <;> linarith
    rw [← iori_area]
    exact_mod_cast this
  have bar : area2 u v (loc p) * (al * r.x + be * r.y + ga) = area2 u v (loc r) * (al * p.x + be * p.y + ga) := by
    have id : area2 v p (loc r) * (al * u.x + be * u.y + ga) + area2 p u (loc r) * (al * v.x + be * v.y + ga) + area2 u v (loc r) * (al * p.x + be * p.y + ga) =
        area2 u v (loc p) * (al * r.x + be * r.y + ga) := by unfold area2 loc; ring
    rw [zu, zv, mul_zero, mul_zero, zero_add, zero_add] at id
    exact id.symm
  have opp : Opposite u v p r := by
    rcases lt_or_gt_of_ne hD with h | h
    · right
      refine ⟨h, ?_⟩
      by_contra hc
      have l := mul_neg_of_neg_of_pos h pr
      have g := mul_nonneg_of_nonpos_of_nonpos (not_lt.mp hc) np.le
      linarith
    · left
      refine ⟨h, ?_⟩
      by_contra hc
      have l := mul_pos h pr
      have g := mul_nonpos_of_nonneg_of_nonpos (not_lt.mp hc) np.le
      linarith
  exact ⟨r, hr, opp⟩

/-- Two triangles with a line between them visit no pixel both: a shared edge. -/
theorem Between.edge {al be ga : ℚ} {t t' : Tri} (B : Between al be ga t t') (nd : NonDegenerate t) (nd' : NonDegenerate t') (ne : verts t ≠ verts t')
    {fl : ℚ → ℚ} (R : Rnd 53 fl) {x y : Int} (hs : ∀ v, IsVertex t v → Int16 v) (hs' : ∀ v, IsVertex t' v → Int16 v)
    {u v p : Pt} (hp : [u, v, p].Perm [t.a, t.b, t.c]) (zu : al * u.x + be * u.y + ga = 0) (zv : al * v.x + be * v.y + ga = 0) (np : al * p.x + be * p.y + ga < 0)
    (h1 : vis fl t x y ≠ 0) (h2 : vis fl t' x y ≠ 0) : False := by
  have hm : Monotone fl := fun a b => R.mono a b
  have mem : ∀ {r : Pt}, r ∈ [u, v, p] → IsVertex t r := fun {r} hr => by
    have := hp.subset hr
    simpa [IsVertex] using this
  obtain ⟨r, hr, opp⟩ := B.shared nd nd' ne hp zu zv np
  have ir : IsVertex t' r := by
    have := hr.subset (show r ∈ [u, v, r] by simp)
    simpa [IsVertex] using this
  have e1 : vis fl ⟨u, v, p⟩ x y = vis fl t x y := vis_perm fl hp x y
  have e2 : vis fl ⟨u, v, r⟩ x y = vis fl t' x y := vis_perm fl hr x y
  have dis := c30_pair_disjoint R 0 (a := u) (b := v) (c := p) (d := r) (by
    intro k hk
    simp only [List.mem_cons, List.not_mem_nil, or_false] at hk
    rcases hk with rfl | rfl | rfl | rfl
    exacts [hs _ (mem (by simp)), hs _ (mem (by simp)), hs _ (mem (by simp)), hs' _ ir]) opp
  refine dis (a := (x, y)) ?_ ?_
  · exact List.count_pos_iff.mp (by rw [count_vis hm, e1]; exact Nat.pos_of_ne_zero h1)
  · exact List.count_pos_iff.mp (by rw [count_vis hm, e2]; exact Nat.pos_of_ne_zero h2)

/-- Two triangles with a line between them visit no pixel both. -/
theorem Between.apart {al be ga : ℚ} {t t' : Tri} (B : Between al be ga t t') (nd : NonDegenerate t) (nd' : NonDegenerate t') (ne : verts t ≠ verts t')
    {fl : ℚ → ℚ} (R : Rnd 53 fl) {w h : Nat} (hw : w ≤ 32767) (hh : h ≤ 32767) (hi : InImage w h t) (hi' : InImage w h t') (x y : Int) :
    vis fl t x y = 0 ∨ vis fl t' x y = 0 := by
  by_contra hcon
  push Not at hcon
  obtain ⟨h1, h2⟩ := hcon
  have s16 : ∀ {t : Tri}, InImage w h t → ∀ v, IsVertex t v → Int16 v := by
    intro t hi v hv
    have := hi v (by simpa [vlist, IsVertex] using hv)
    unfold Int16
    omega
  have fit : ∀ {t : Tri}, InImage w h t → ∀ v, IsVertex t v → Fit x v ∧ Small v := by
    intro t hi v hv
    have := hi v (by simpa [vlist, IsVertex] using hv)
    exact ⟨Or.inr ⟨this.1, this.2.2.1⟩, (s16 hi v hv).small⟩
  have f := fit hi
  have f' := fit hi'
  have c1 := vis_closed R nd (f _ (Or.inl rfl)) (f _ (Or.inr (Or.inl rfl))) (f _ (Or.inr (Or.inr rfl))) h1
  have c2 := vis_closed R nd' (f' _ (Or.inl rfl)) (f' _ (Or.inr (Or.inl rfl))) (f' _ (Or.inr (Or.inr rfl))) h2
  obtain ⟨l, m, n, hl, hm, hn, s, ex, ey⟩ := closed_weights nd c1
  obtain ⟨l', m', n', hl', hm', hn', s', ex', ey'⟩ := closed_weights nd' c2
  have na := B.neg t.a (Or.inl rfl)
  have nb := B.neg t.b (Or.inr (Or.inl rfl))
  have nc := B.neg t.c (Or.inr (Or.inr rfl))
  have e : al * (corner x y).x + be * (corner x y).y + ga = l * (al * t.a.x + be * t.a.y + ga) + m * (al * t.b.x + be * t.b.y + ga) + n * (al * t.c.x + be * t.c.y + ga) := by
    rw [ex, ey]; linear_combination (-ga) * s
  have e' : al * (corner x y).x + be * (corner x y).y + ga = l' * (al * t'.a.x + be * t'.a.y + ga) + m' * (al * t'.b.x + be * t'.b.y + ga) + n' * (al * t'.c.x + be * t'.c.y + ga) := by
    rw [ex', ey']; linear_combination (-ga) * s'
  have p1 := mul_nonneg hl' (B.pos t'.a (Or.inl rfl))
  have p2 := mul_nonneg hm' (B.pos t'.b (Or.inr (Or.inl rfl)))
  have p3 := mul_nonneg hn' (B.pos t'.c (Or.inr (Or.inr rfl)))
  have q1 := mul_nonpos_of_nonneg_of_nonpos hl na
  have q2 := mul_nonpos_of_nonneg_of_nonpos hm nb
  have q3 := mul_nonpos_of_nonneg_of_nonpos hn nc
  have z1 : l * (al * t.a.x + be * t.a.y + ga) = 0 := by linarith
  have z2 : m * (al * t.b.x + be * t.b.y + ga) = 0 := by linarith
  have z3 : n * (al * t.c.x + be * t.c.y + ga) = 0 := by linarith
  have hne := B.off nd nd' ne
  have vx := fun {u : Pt} => B.vertex nd nd' ne R (x := x) (y := y) f f' (u := u)
  have ed := fun {u v p : Pt} => B.edge nd nd' ne R (x := x) (y := y) (s16 hi) (s16 hi') (u := u) (v := v) (p := p)
  have at_ : ∀ {u : Pt}, (corner x y).x = u.x → (corner x y).y = u.y → corner x y = loc u := by
    intro u a b
    unfold loc
    rw [← a, ← b]
  by_cases za : al * t.a.x + be * t.a.y + ga = 0 <;> by_cases zb : al * t.b.x + be * t.b.y + ga = 0 <;> by_cases zc : al * t.c.x + be * t.c.y + ga = 0
  · obtain ⟨v, hv, lt⟩ := hne
    rcases hv with rfl | rfl | rfl <;> linarith
  · exact ed (List.Perm.refl _) za zb (lt_of_le_of_ne nc zc) h1 h2
  · exact ed (((List.Perm.swap _ _ _).trans ((List.Perm.swap _ _ _).cons _))) zc za (lt_of_le_of_ne nb zb) h1 h2
  · have m0 := (mul_eq_zero.mp z2).resolve_right zb
    have n0 := (mul_eq_zero.mp z3).resolve_right zc
    have l1 : l = 1 := by linarith
    exact vx (Or.inl rfl) (B.on _ (Or.inl rfl) za) (at_ (by rw [ex, m0, n0, l1]; ring) (by rw [ey, m0, n0, l1]; ring)) h1 h2
  · exact ed (((List.Perm.swap _ _ _).trans ((List.Perm.swap _ _ _).cons _)).trans ((List.Perm.swap _ _ _).trans ((List.Perm.swap _ _ _).cons _))) zb zc (lt_of_le_of_ne na za) h1 h2
  · have l0 := (mul_eq_zero.mp z1).resolve_right za
    have n0 := (mul_eq_zero.mp z3).resolve_right zc
    have m1 : m = 1 := by linarith
    exact vx (Or.inr (Or.inl rfl)) (B.on _ (Or.inr (Or.inl rfl)) zb) (at_ (by rw [ex, l0, n0, m1]; ring) (by rw [ey, l0, n0, m1]; ring)) h1 h2
  · have l0 := (mul_eq_zero.mp z1).resolve_right za
    have m0 := (mul_eq_zero.mp z2).resolve_right zb
    have n1 : n = 1 := by linarith
    exact vx (Or.inr (Or.inr rfl)) (B.on _ (Or.inr (Or.inr rfl)) zc) (at_ (by rw [ex, l0, m0, n1]; ring) (by rw [ey, l0, m0, n1]; ring)) h1 h2
  · have l0 := (mul_eq_zero.mp z1).resolve_right za
    have m0 := (mul_eq_zero.mp z2).resolve_right zb
    have n0 := (mul_eq_zero.mp z3).resolve_right zc
    linarith

/-! ### In the real plane -/

theorem rarea_cast (a b c : Pt) : rarea a b (c.x, c.y) = ((area2 a b (loc c) : ℚ) : ℝ) := by
  unfold rarea area2 loc
  push_cast
  ring

/-- Weights of a real location of the open triangle. -/
theorem openTri_weights {t : Tri} {q : ℝ × ℝ} (hq : q ∈ openTri t) :
    ∃ l m n : ℝ, 0 < l ∧ 0 < m ∧ 0 < n ∧ l + m + n = 1 ∧ q.1 = l * t.a.x + m * t.b.x + n * t.c.x ∧ q.2 = l * t.a.y + m * t.b.y + n * t.c.y := by
  obtain ⟨h1, h2, h3⟩ := hq
  have s : rarea t.a t.b q + rarea t.b t.c q + rarea t.c t.a q = rarea t.a t.b (t.c.x, t.c.y) := by unfold rarea; ring
  have ex : rarea t.b t.c q * t.a.x + rarea t.c t.a q * t.b.x + rarea t.a t.b q * t.c.x = rarea t.a t.b (t.c.x, t.c.y) * q.1 := by unfold rarea; ring
  have ey : rarea t.b t.c q * t.a.y + rarea t.c t.a q * t.b.y + rarea t.a t.b q * t.c.y = rarea t.a t.b (t.c.x, t.c.y) * q.2 := by unfold rarea; ring
  generalize rarea t.a t.b (t.c.x, t.c.y) = D at *
  have hD : D ≠ 0 := by rintro rfl; simp at h1
  have p : 0 < D * D := mul_self_pos.mpr hD
  have dv : ∀ r : ℝ, 0 < D * r → 0 < r / D := fun r hr => by
    rw [show r / D = D * r / (D * D) by field_simp]
    exact div_pos hr p
  refine ⟨rarea t.b t.c q / D, rarea t.c t.a q / D, rarea t.a t.b q / D, dv _ h2, dv _ h3, dv _ h1, ?_, ?_, ?_⟩
  · field_simp; linarith
  · field_simp; linarith
  · field_simp; linarith

theorem Between.side {al be ga : ℚ} {t t' : Tri} (B : Between al be ga t t') (nd : NonDegenerate t) (nd' : NonDegenerate t') (ne : verts t ≠ verts t') {q : ℝ × ℝ}
    (hq : q ∈ openTri t) : (al : ℝ) * q.1 + be * q.2 + ga < 0 := by
  obtain ⟨l, m, n, hl, hm, hn, s, ex, ey⟩ := openTri_weights hq
  have e : (al : ℝ) * q.1 + be * q.2 + ga = l * (al * t.a.x + be * t.a.y + ga) + m * (al * t.b.x + be * t.b.y + ga) + n * (al * t.c.x + be * t.c.y + ga) := by
    rw [ex, ey]; linear_combination (-(ga : ℝ)) * s
  have c : ∀ v, IsVertex t v → (al : ℝ) * v.x + be * v.y + ga ≤ 0 := fun v hv => by exact_mod_cast B.neg v hv
  have ha := mul_nonpos_of_nonneg_of_nonpos hl.le (c t.a (Or.inl rfl))
  have hb := mul_nonpos_of_nonneg_of_nonpos hm.le (c t.b (Or.inr (Or.inl rfl)))
  have hc := mul_nonpos_of_nonneg_of_nonpos hn.le (c t.c (Or.inr (Or.inr rfl)))
  obtain ⟨v, hv, lt⟩ := B.off nd nd' ne
  have lt : (al : ℝ) * v.x + be * v.y + ga < 0 := by exact_mod_cast lt
  rw [e]
  rcases hv with rfl | rfl | rfl
  · have := mul_neg_of_pos_of_neg hl lt; linarith
  · have := mul_neg_of_pos_of_neg hm lt; linarith
  · have := mul_neg_of_pos_of_neg hn lt; linarith

theorem Between.disjoint {al be ga : ℚ} {t t' : Tri} (B : Between al be ga t t') (nd : NonDegenerate t) (nd' : NonDegenerate t') (ne : verts t ≠ verts t') :
    Disjoint (openTri t) (openTri t') := by
  rw [Set.disjoint_left]
  intro q h1 h2
  have a := B.side nd nd' ne h1
  have b := B.swap.side nd' nd ne.symm h2
  push_cast at b
  linarith

theorem openTri_image {w h : Nat} {t : Tri} (hi : InImage w h t) : openTri t ⊆ Set.Icc (0 : ℝ) w ×ˢ Set.Icc (0 : ℝ) h := by
  intro q hq
  obtain ⟨l, m, n, hl, hm, hn, s, ex, ey⟩ := openTri_weights hq
  have ha := hi t.a (by simp [vlist])
  have hb := hi t.b (by simp [vlist])
  have hc := hi t.c (by simp [vlist])
  have cast : ∀ {u : Pt}, (0 ≤ u.x ∧ u.x ≤ w ∧ 0 ≤ u.y ∧ u.y ≤ h) → ((0 : ℝ) ≤ u.x ∧ (u.x : ℝ) ≤ w ∧ (0 : ℝ) ≤ u.y ∧ (u.y : ℝ) ≤ h) := by
    intro u hu
    exact_mod_cast hu
  obtain ⟨a1, a2, a3, a4⟩ := cast ha
  obtain ⟨b1, b2, b3, b4⟩ := cast hb
  obtain ⟨c1, c2, c3, c4⟩ := cast hc
  have up : ∀ {a b c W : ℝ}, a ≤ W → b ≤ W → c ≤ W → l * a + m * b + n * c ≤ W := by
    intro a b c W h1 h2 h3
    have := mul_le_mul_of_nonneg_left h1 hl.le
    have := mul_le_mul_of_nonneg_left h2 hm.le
    have := mul_le_mul_of_nonneg_left h3 hn.le
    have : l * W + m * W + n * W = W := by rw [← add_mul, ← add_mul, s, one_mul]
    linarith
  refine ⟨⟨?_, ?_⟩, ?_, ?_⟩
  · rw [ex]; positivity
  · rw [ex]; exact up a2 b2 c2
  · rw [ey]; positivity
  · rw [ey]; exact up a4 b4 c4

theorem sum_le_one : ∀ {l : List Nat}, (∀ a ∈ l, a ≤ 1) → l.Pairwise (fun a b => a = 0 ∨ b = 0) → l.sum ≤ 1
  | [], _, _ => by simp
  | a :: l, h, hp => by
    rw [List.pairwise_cons] at hp
    have ih := sum_le_one (fun b hb => h b (List.mem_cons_of_mem _ hb)) hp.2
    rw [List.sum_cons]
    rcases Nat.eq_zero_or_pos a with h0 | h0
    · omega
    · have : l.sum = 0 := by
        rw [List.sum_eq_zero_iff]
        intro b hb
        exact (hp.1 b hb).resolve_left (by omega)
      have := h a (by simp)
      omega

/-- Delaunay triangles of points in general position are a mesh. -/
theorem delaunay_mesh {W : Pt → Prop} (G : GeneralPosition W) {w h : Nat} (hw : w ≤ 32767) (hh : h ≤ 32767) {T : List Tri}
    (img : ∀ v, W v → 0 ≤ v.x ∧ v.x ≤ w ∧ 0 ≤ v.y ∧ v.y ≤ h) (nd : ∀ t ∈ T, NonDegenerate t) (hv : ∀ t ∈ T, ∀ v, IsVertex t v → W v)
    (he : ∀ t ∈ T, ∀ v, W v → ¬ InsideCircle t v) (hd : (T.map verts).Nodup) : Mesh w h T := by
  have im : ∀ t ∈ T, InImage w h t := fun t ht v hvl => img v (hv t ht v (by simpa [vlist, IsVertex] using hvl))
  have pw : T.Pairwise fun t t' => verts t ≠ verts t' := List.pairwise_map.mp hd
  refine ⟨im, nd, ?_, fun fl R z q => ?_⟩
  · refine area_sum_le (pw.imp_of_mem fun {t t'} ht ht' ne => ?_) fun t ht => openTri_image (im t ht)
    obtain ⟨al, be, ga, B⟩ := delaunay_between G (nd t ht) (nd t' ht') (hv t ht) (hv t' ht') (he t ht) (he t' ht')
    exact B.disjoint (nd t ht) (nd t' ht') ne
  · unfold visits
    have hm : Monotone fl := fun a b => R.mono a b
    refine sum_le_one (fun a ha => ?_) ?_
    · obtain ⟨t, -, rfl⟩ := List.mem_map.mp ha
      rw [show q = (q.1, q.2) from rfl, count_vis hm]
      exact vis_le_one _ _
    · rw [List.pairwise_map]
      refine pw.imp_of_mem fun {t t'} ht ht' ne => ?_
      obtain ⟨al, be, ga, B⟩ := delaunay_between G (nd t ht) (nd t' ht') (hv t ht) (hv t' ht') (he t ht) (he t' ht')
      rw [show q = (q.1, q.2) from rfl, count_vis hm, count_vis hm]
      exact B.apart (nd t ht) (nd t' ht') ne R hw hh (im t ht) (im t' ht') q.1 q.2

/-! ### C98 -/

theorem groupPoint_in {fl : ℚ → ℚ} (R : Rnd 53 fl) {w h : Nat} (hw : w ≤ 32767) (hh : h ≤ 32767) {p : NP} (hp : Alg.Unit01 p) :
    0 ≤ (groupPoint fl w h p).x ∧ (groupPoint fl w h p).x ≤ w ∧ 0 ≤ (groupPoint fl w h p).y ∧ (groupPoint fl w h p).y ≤ h := by
  have key : ∀ (n : Nat) (x : ℚ), n ≤ 32767 → 0 ≤ x → x ≤ 1 → 0 ≤ mathRound (fl (x * n)) ∧ mathRound (fl (x * n)) ≤ n := by
    intro n x hn x0 x1
    have n0 : (0 : ℚ) ≤ n := by positivity
    have a0 : 0 ≤ fl (x * n) := R.nonneg (by positivity)
    have a1 : fl (x * n) ≤ (n : ℤ) := R.le_int (by rw [abs_of_nonneg (by positivity)]; norm_num; omega) (by push_cast; nlinarith)
    push_cast at a1
    exact mathRound_in (n := n) (x := fl (x * n)) (by linarith) (by linarith)
  obtain ⟨a, b⟩ := key w p.x hw hp.1.1 hp.1.2
  obtain ⟨c, d⟩ := key h p.y hh hp.2.1 hp.2.2
  exact ⟨a, b, c, d⟩

/-- What a Delaunay library reports for points in general position is a mesh. -/
theorem triangulate_mesh {lib : List Pt → List Nat} (L : LibOnce lib) {fl : ℚ → ℚ} (R : Rnd 53 fl) {w h : Nat} (hw : w ≤ 32767) (hh : h ≤ 32767) {ps : List NP}
    (hu : ∀ p ∈ ps, Alg.Unit01 p) (G : GeneralPosition (· ∈ ps.map (groupPoint fl w h))) {T : List Tri} (hT : triangulate lib fl w h ps = some T) : Mesh w h T := by
  have rep := triangulate_reports L.ok hT
  refine delaunay_mesh G hw hh ?_ (fun t ht => (L.sound _ t ((rep t).mp ht)).1) ?_ (fun t ht => (L.sound _ t ((rep t).mp ht)).2) (triangulate_nodup L hT)
  · intro v hv
    obtain ⟨p, hp, rfl⟩ := List.mem_map.mp hv
    exact groupPoint_in R hw hh (hu p hp)
  · intro t ht v hv
    obtain ⟨i, a, b, c, -, h1, h2, h3⟩ := (rep t).mp ht
    rcases hv with rfl | rfl | rfl
    exacts [List.mem_of_getElem? h1, List.mem_of_getElem? h2, List.mem_of_getElem? h3]

/-- **C98**, no overlap (partial: for points of which no four pixels are on a circle): the triangles that `Triangulate` returns have no location inside in common, their areas
add up to at most the area of the image, and drawing them with the rasterizer, in any arithmetic of 53 bits, visits only pixels of the image and none twice. -/
theorem c98_disjoint_partial {lib : List Pt → List Nat} (L : LibOnce lib) {fl : ℚ → ℚ} (R : Rnd 53 fl) {w h : Nat} (hw : w ≤ 32767) (hh : h ≤ 32767) {ps : List NP}
    (hu : ∀ p ∈ ps, Alg.Unit01 p) (G : GeneralPosition (· ∈ ps.map (groupPoint fl w h))) :
    ∃ T, triangulate lib fl w h ps = some T ∧ T.Pairwise (fun t t' => ∀ q, ¬ (Interior t q ∧ Interior t' q)) ∧ (T.map area).sum ≤ w * h ∧
      ∀ fl', Rnd 53 fl' → ∀ z, (T.flatMap (DDATriangle fl' z)).Nodup ∧ ∀ q ∈ T.flatMap (DDATriangle fl' z), IsPixel w h q := by
  obtain ⟨T, hT, -, -⟩ := c80_triangulate lib L.ok fl w h ps
  have M := triangulate_mesh L R hw hh hu G hT
  have rep := triangulate_reports L.ok hT
  have ver : ∀ t ∈ T, ∀ v, IsVertex t v → v ∈ ps.map (groupPoint fl w h) := by
    intro t ht v hv
    obtain ⟨i, a, b, c, -, h1, h2, h3⟩ := (rep t).mp ht
    rcases hv with rfl | rfl | rfl
    exacts [List.mem_of_getElem? h1, List.mem_of_getElem? h2, List.mem_of_getElem? h3]
  refine ⟨T, hT, ?_, M.area, fun fl' R' z => ⟨?_, ?_⟩⟩
  · refine (List.pairwise_map.mp (triangulate_nodup L hT)).imp_of_mem fun {t t'} ht ht' ne q => ?_
    rintro ⟨h1, h2⟩
    have s := L.sound _ t ((rep t).mp ht)
    have s' := L.sound _ t' ((rep t').mp ht')
    obtain ⟨al, be, ga, B⟩ := delaunay_between G s.1 s'.1 (ver t ht) (ver t' ht') s.2 s'.2
    have a := B.interior s.1 s'.1 ne h1
    have b := B.swap.interior s'.1 s.1 ne.symm h2
    linarith
  · rw [List.nodup_iff_count_le_one]
    intro q
    rw [List.count_flatMap]
    exact M.once fl' R' z q
  · intro q hq
    obtain ⟨t, ht, hq⟩ := List.mem_flatMap.mp hq
    exact (c29_bounds R' z (by omega) (by omega) t (M.img t ht) (bs := 1) le_rfl).2.2 q hq

section
variable {w h : Nat} {f : Nat → Nat → Fin 256 × Fin 256 × Fin 256} {g : Geo} {lib : List Pt → List Nat} {ps : List NP} {ops : List Op} {m : Nat} {d : D} {z : ℚ} {bs N : Nat}
  {bf : D → D → Bufs}

theorem regular_general (k : SizeOk w h) (hu : ∀ p ∈ ps, Alg.Unit01 p) (C : Regular (ofBytes (rne 53) w h f) ps) :
    GeneralPosition (· ∈ ps.map (groupPoint (rne 53) w h)) := by
  have R : Rnd 53 (rne 53) := rne_rnd (by norm_num)
  have same : pix (rne 53) (ofBytes (rne 53) w h f) ps = ps.map (groupPoint (rne 53) w h) := List.map_congr_left fun p hp' => by
    rw [← roundPoint_group R k (hu p hp')]
    exact (roundPoint_eq (F := ieee) R stores_ieee k (hu p hp') (C.off p hp').1 (C.off p hp').2).symm
  rw [← same]
  exact fun a b c d ha hb hc hd => C.general a b c d (Or.inl ha) (Or.inl hb) (Or.inl hc) (Or.inl hd)

/-- **C98**, from below (partial: for points in general position, under `Arith`, images of at most 6800000 pixels): the picture that is exported is at least as good as the fitness
says, up to 1/90000, whether or not it has triangles that were not evaluated. -/
theorem c98_lower_partial (L : LibOnce lib) (A : Arith g (rne 53) w h ops) (hwh : w * h ≤ 6800000) (hb : 1 ≤ bs) (hb' : bs ≤ 16) (hu : ∀ p ∈ ps, Alg.Unit01 p)
    (C : Regular (ofBytes (rne 53) w h f) ps) (H : Hist w h ops ↑(pix (rne 53) (ofBytes (rne 53) w h f) ps) m) (e : exec g (rne 53) w h ops = some d)
    {v : ℚ} (ev : evalTris (rne 53) z (ofBytes (rne 53) w h f) bs (iterTriangles d) = some v) :
    ∃ T out cs, triangulate lib (rne 53) w h ps = some T ∧ trianglesOnImage (rne 53) z (ofBytes (rne 53) w h f) T = some out ∧ out.map Prod.snd = cs.map some ∧
      v ≤ quality z (ofBytes (rne 53) w h f) T cs + 1 / 90000 := by
  have k := A.size
  obtain ⟨T, hT, -, -⟩ := c80_triangulate lib L.ok (rne 53) w h ps
  have M := triangulate_mesh L (rne_rnd (by norm_num)) (k.w2.trans (by norm_num)) (k.h2.trans (by norm_num)) hu (regular_general k hu C) hT
  obtain ⟨out, cs, h1, h2, h3⟩ := c96_lower_partial L A hwh hb hb' hu C H e hT M ev
  exact ⟨T, out, cs, hT, h1, h2, h3⟩

/-- **C98**, from below, the fitness function (partial: for points in general position, under `Arith`, images of at most 6800000 pixels): what `Calculate` returns after any calls
is at most the quality of the picture that is exported for the points, up to 1/90000. -/
theorem c98_calculate_partial (L : LibOnce lib) (A : ∀ ops, Arith g (rne 53) w h ops) (hwh : w * h ≤ 6800000) (hb : 1 ≤ bs) (hb' : bs ≤ 16) (hN : N ≤ 32767)
    {n k : Nat} (hk : 1 ≤ k) {cs : List Call} {i : Nat} {ms : List Mut} {B : Book} {p : List Bool}
    (hB : Recordeds Alg.Unit01 N (Book.new n) (cs ++ [.calculate i ps ms]) B) (hf : flags (List.replicate n false) (cs ++ [.calculate i ps ms]) = some p)
    (C : Regular (ofBytes (rne 53) w h f) ps) :
    ∃ s v s' T out cols, calls (triFun g (rne 53) z (ofBytes (rne 53) w h f) bs bf) (newParallel n k) cs = some s ∧
      calculate (triFun g (rne 53) z (ofBytes (rne 53) w h f) bs bf) s i ps ms = some (v, s') ∧
      triangulate lib (rne 53) w h ps = some T ∧ trianglesOnImage (rne 53) z (ofBytes (rne 53) w h f) T = some out ∧ out.map Prod.snd = cols.map some ∧
      v ≤ quality z (ofBytes (rne 53) w h f) T cols + 1 / 90000 := by
  have R : Rnd 53 (rne 53) := rne_rnd (by norm_num)
  obtain ⟨s, v, s', hs, hv, -, u, ops, m, d0, H, e, ev⟩ := c40_own_points_partial (I := ofBytes (rne 53) w h f) (z := z) (bf := bf) R A
    (ofBytes_ok R w h f) hb hb' hN hk hB hf
  obtain ⟨T, out, cols, h1, h2, h3, h4⟩ := c98_lower_partial L (A ops) hwh hb hb' u C H e ev
  exact ⟨s, v, s', T, out, cols, hs, hv, h1, h2, h3, h4⟩

end

/-- **C98**, from below, the algorithm (partial: for best points in general position, IEEE arithmetic, images up to 4096 pixels a side and 6800000 pixels): after `DefaultAlgorithm`
and any number of steps the best fitness is at most the quality of the picture that is exported for `Best()`, up to 1/90000. -/
theorem c98_default_partial {σ : Type} {r : Source σ} {im : Source16} {n : Int} {srt : Alg.Sorter} {z : ℚ} {bf : D → D → Bufs} {s0 : σ} {lib : List Pt → List Nat}
    (L : LibOnce lib) (S : DefaultOK r im n srt) (hwh : im.maxX.toNat * im.maxY.toNat ≤ 6800000) {g : Nat} {a : Algo D Tri} {s : σ}
    (h : DefaultExec ieee srt z bf r im n s0 g a s) (C : Regular (theImage im) a.best) :
    ∃ T out cs, triangulate lib (rne 53) im.maxX.toNat im.maxY.toNat a.best = some T ∧ trianglesOnImage (rne 53) z (theImage im) T = some out ∧
      out.map Prod.snd = cs.map some ∧ a.bestFit ≤ quality z (theImage im) T cs + 1 / 90000 := by
  obtain ⟨-, -, -, hu, -, ⟨ops, m, d, H, e, ev, -⟩, -⟩ := c78_default_partial S h
  have A : Arith (gridGeo ieee im.maxX.toNat im.maxY.toNat) (rne 53) im.maxX.toNat im.maxY.toNat ops := (S.setting s0).arith ops
  exact c98_lower_partial L A hwh (by norm_num) (by norm_num) hu C H e ev

/-! ### Cases -/

/-- Five points; the pixels of no four are on a circle. -/
def fivePoints : List NP := [⟨0, 1 / 8⟩, ⟨7 / 8, 1 / 4⟩, ⟨1 / 4, 7 / 8⟩, ⟨1 / 2, 3 / 8⟩, ⟨1, 1⟩]

/-- The assumptions of `c98_disjoint_partial` hold of them. -/
example : ∃ T, triangulate onceLib (rne 53) 40 30 fivePoints = some T ∧ T.Pairwise (fun t t' => ∀ q, ¬ (Interior t q ∧ Interior t' q)) ∧ (T.map area).sum ≤ 40 * 30 ∧
    ∀ fl', Rnd 53 fl' → ∀ z, (T.flatMap (DDATriangle fl' z)).Nodup ∧ ∀ q ∈ T.flatMap (DDATriangle fl' z), IsPixel 40 30 q :=
  c98_disjoint_partial onceLib_ok (rne_rnd (by norm_num)) (by norm_num) (by norm_num) (by unfold fivePoints Alg.Unit01; norm_num)
    (general_of (fun _ h => h) (by decide +kernel))

/-- The assumptions of `c98_lower_partial` hold of `leanDemo`. -/
example : ∃ d v T out cs, exec (gridGeo ieee 40 30) (rne 53) 40 30 ((pix (rne 53) (ofBytes (rne 53) 40 30 fun _ _ => (0, 0, 0)) leanDemo).map .ins) = some d ∧
    evalTris (rne 53) 0 (ofBytes (rne 53) 40 30 fun _ _ => (0, 0, 0)) 5 (iterTriangles d) = some v ∧ triangulate onceLib (rne 53) 40 30 leanDemo = some T ∧
    trianglesOnImage (rne 53) 0 (ofBytes (rne 53) 40 30 fun _ _ => (0, 0, 0)) T = some out ∧ out.map Prod.snd = cs.map some ∧
    v ≤ quality 0 (ofBytes (rne 53) 40 30 fun _ _ => (0, 0, 0)) T cs + 1 / 90000 := by
  have R : Rnd 53 (rne 53) := rne_rnd (by norm_num)
  obtain ⟨m, H⟩ := hist_ins (pix (rne 53) (ofBytes (rne 53) 40 30 fun _ _ => (0, 0, 0)) leanDemo) (Hist.nil (w := 40) (h := 30))
    (pix_img R (by decide) (by decide) leanDemo_unit) (by decide)
  rw [List.nil_append, zero_add] at H
  obtain ⟨d, e⟩ := c06_c07_run_ok_partial (arith_ieee demo_size (by decide)) H
  obtain ⟨v, ev, -⟩ := eval_sum 0 (fun _ _ => (0, 0, 0)) (bs := 5) (by norm_num) (by norm_num) (by norm_num) (by norm_num) (by norm_num) (by norm_num) (by norm_num)
    (mesh_of (arith_ieee demo_size (by decide)) H e)
  obtain ⟨T, out, cs, h1, h2, h3, h4⟩ := c98_lower_partial onceLib_ok (arith_ieee demo_size (by decide)) (by norm_num) (by norm_num) (by norm_num) leanDemo_unit lean_regular H e ev
  exact ⟨d, v, T, out, cs, e, ev, h1, h2, h3, h4⟩

/-- The assumptions of `c98_calculate_partial` hold of the history of `tinyCalls`. -/
example : ∃ s v s' T out cols, calls tinyFun (newParallel 2 1) tinyCalls = some s ∧ calculate tinyFun s 1 tinyPoints tinyMut = some (v, s') ∧
    triangulate onceLib (rne 53) 4 4 tinyPoints = some T ∧ trianglesOnImage (rne 53) 0 (checker (rne 53) 4 4) T = some out ∧ out.map Prod.snd = cols.map some ∧
    v ≤ quality 0 (checker (rne 53) 4 4) T cols + 1 / 90000 :=
  c98_calculate_partial onceLib_ok (fun _ => arith_ieee tiny_size (by decide)) (by norm_num) (by norm_num) (by norm_num)
    (N := 4) (by norm_num) (n := 2) (k := 1) (by norm_num) tiny_recorded (p := [false, true]) (by decide) tiny_clear.toRegular

/-- The assumptions of `c98_default_partial` hold: `DefaultAlgorithm` with the source `steady`. -/
example : ∃ a s T out cs, DefaultExec ieee someSorter 0 (fun _ _ => ⟨[], [], fun _ _ => [], fun _ => []⟩) steady steadyImage 3 0 0 a s ∧
    triangulate onceLib (rne 53) 6 5 a.best = some T ∧ trianglesOnImage (rne 53) 0 (theImage steadyImage) T = some out ∧
    out.map Prod.snd = cs.map some ∧ a.bestFit ≤ quality 0 (theImage steadyImage) T cs + 1 / 90000 := by
  obtain ⟨l, a, s, h⟩ := (c78_new_partial (z := 0) (bf := fun _ _ => ⟨[], [], fun _ _ => [], fun _ => []⟩) steady_setting 0).mpr (by decide)
  have E := DefaultExec.new h
  have C : Regular (theImage steadyImage) a.best := by rw [(steady_exec E).2]; exact steady_clear.toRegular
  obtain ⟨T, out, cs, h1, h2, h3, h4⟩ := c98_default_partial onceLib_ok steady_setting (by decide) E C
  exact ⟨a, s, T, out, cs, E, h1, h2, h3, h4⟩

end Verif.Props

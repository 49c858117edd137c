import Verif.Raster.Tile

/-!
# Visited pixels and half-open triangles
-/

namespace Verif.Raster

open Verif.Incr Verif.Float Verif.Tri Verif.Spec

/-- Nonnegative coordinates. -/
def Nonneg (p : Pt) : Prop := 0 ≤ p.x ∧ 0 ≤ p.y

/-- A pixel to the right of 0, or a point with nonnegative coordinates. -/
def Fit (x : Int) (p : Pt) : Prop := 0 ≤ x ∨ Nonneg p

/-- The lattice point that decides about a pixel. -/
def corner (x y : Int) : P2 := ⟨(x + 1 : Int), y⟩

theorem exact_nonneg {u v : Pt} (hu : Nonneg u) (hv : Nonneg v) {y : Int} (h1 : u.y ≤ y) (h2 : y < v.y) : 0 ≤ exact u v y := by
  unfold exact
  apply div_nonneg
  · have : 0 ≤ num u v y := by
      have : num u v y = u.x * (v.y - y) + v.x * (y - u.y) := by unfold num; ring
      rw [this]
      have := mul_nonneg hu.1 (show 0 ≤ v.y - y by omega)
      have := mul_nonneg hv.1 (show 0 ≤ y - u.y by omega)
      omega
    exact_mod_cast this
  · exact_mod_cast (by omega : 0 ≤ v.y - u.y)

theorem ori_exact {u v : Pt} (h : u.y < v.y) (x y : Int) :
    ori (toP u) (toP v) (corner x y) = ((v.y - u.y : Int) : ℚ) * (exact u v y - ((x + 1 : Int) : ℚ)) := by
  have h' : (u.y : ℚ) < v.y := by exact_mod_cast h
  have n : (v.y : ℚ) - u.y ≠ 0 := by linarith
  unfold ori toP corner exact num
  push_cast
  field_simp
  ring

theorem Fit.exact {u v : Pt} {x y : Int} (hu : Fit x u) (hv : Fit x v) (h1 : u.y ≤ y) (h2 : y < v.y) : 0 ≤ x ∨ 0 ≤ exact u v y := by
  rcases hu with hu | hu
  · exact Or.inl hu
  · rcases hv with hv | hv
    · exact Or.inl hv
    · exact Or.inr (exact_nonneg hu hv h1 h2)

theorem trunc_lt_iff {q : ℚ} {x : Int} (h : 0 ≤ x ∨ 0 ≤ q) : x < trunc q ↔ ((x + 1 : Int) : ℚ) ≤ q := by
  unfold trunc
  by_cases hq : 0 ≤ q
  · rw [if_pos hq, ← Int.add_one_le_iff, Int.le_floor]
  · rw [if_neg hq]
    have hx : 0 ≤ x := h.resolve_right hq
    have h1 : ⌈q⌉ ≤ 0 := Int.ceil_le.mpr (by push_cast; linarith)
    have h2 : (0 : ℚ) ≤ ((x + 1 : Int) : ℚ) := by exact_mod_cast (by omega : 0 ≤ x + 1)
    constructor
    · intro h; omega
    · intro h; exfalso; linarith

theorem ind_exact {u v : Pt} {x y : Int} (hu : Fit x u) (hv : Fit x v) (h1 : u.y ≤ y) (h2 : y < v.y) :
    x < trunc (edgeAt id u v y) ↔ 0 ≤ ori (toP u) (toP v) (corner x y) := by
  have hlt : u.y < v.y := by omega
  have hp : (0 : ℚ) < ((v.y - u.y : Int) : ℚ) := by exact_mod_cast (by omega : 0 < v.y - u.y)
  rw [edgeAt_id hlt, trunc_lt_iff (hu.exact hv h1 h2), ori_exact hlt]
  constructor
  · intro h; exact mul_nonneg hp.le (by linarith)
  · intro h
    have := nonneg_of_mul_nonneg_right h hp
    linarith

theorem ind_rnd {fl : ℚ → ℚ} (R : Rnd 53 fl) {u v : Pt} (su : Small u) (sv : Small v) {x y : Int} (hu : Fit x u) (hv : Fit x v)
    (h1 : u.y ≤ y) (h2 : y < v.y) (hne : ori (toP u) (toP v) (corner x y) ≠ 0) :
    x < trunc (edgeAt fl u v y) ↔ 0 ≤ ori (toP u) (toP v) (corner x y) := by
  have hlt : u.y < v.y := by omega
  have hp : (0 : ℚ) < ((v.y - u.y : Int) : ℚ) := by exact_mod_cast (by omega : 0 < v.y - u.y)
  have he := abs_le.mp (cut_err R su sv hlt h1 h2.le)
  have h0 := hu.exact hv h1 h2
  have hd := dy_le su sv
  have hg : (1 : ℚ) / 2 ^ 16 ≤ 1 / ((v.y - u.y : Int) : ℚ) := one_div_le_one_div_of_le hp hd
  have hsm : (1 : ℚ) / 2 ^ 35 < 1 / 2 ^ 16 := by norm_num
  rw [ori_exact hlt] at hne ⊢
  rcases lt_trichotomy (exact u v y) ((x + 1 : Int) : ℚ) with k | k | k
  · have hx : 0 ≤ x := by
      rcases h0 with h0 | h0
      · exact h0
      have : (0 : ℚ) < ((x + 1 : Int) : ℚ) := lt_of_le_of_lt h0 k
      have : 0 < x + 1 := by exact_mod_cast this
      omega
    have g : exact u v y + 1 / ((v.y - u.y : Int) : ℚ) ≤ ((x + 1 : Int) : ℚ) := by
      have := frac_gap (A := num u v y) (B := x + 1) (c := v.y - u.y) (d := 1) (by omega) (by norm_num) (by
        unfold exact at k; simpa using k)
      unfold exact
      simpa using this
    have l : edgeAt fl u v y < ((x + 1 : Int) : ℚ) := by linarith [he.2]
    constructor
    · intro hh
      exfalso
      unfold trunc at hh
      split at hh
      · have := lt_of_le_of_lt (Int.floor_le (edgeAt fl u v y)) l
        have : ⌊edgeAt fl u v y⌋ < x + 1 := by exact_mod_cast this
        omega
      · rename_i hn
        have : ⌈edgeAt fl u v y⌉ ≤ 0 := Int.ceil_le.mpr (by push_cast; linarith)
        omega
    · intro hh
      exfalso
      have := nonneg_of_mul_nonneg_right hh hp
      linarith
  · exfalso; apply hne; rw [k]; ring
  · have g : ((x + 1 : Int) : ℚ) + 1 / ((v.y - u.y : Int) : ℚ) ≤ exact u v y := by
      have := frac_gap (A := x + 1) (B := num u v y) (c := 1) (d := v.y - u.y) (by norm_num) (by omega) (by
        unfold exact at k; simpa using k)
      unfold exact
      simpa using this
    have l : ((x + 1 : Int) : ℚ) ≤ edgeAt fl u v y := by linarith [he.1]
    have := le_trunc l
    constructor
    · intro _; exact mul_nonneg hp.le (by linarith)
    · intro _; omega

/-- Crossings agree with the half-open convention where the comparison of the edge does. -/
theorem rc_cr {fl : ℚ → ℚ} {x y : Int} {u v : Pt}
    (h1 : u.y ≤ y → y < v.y → (x < trunc (edgeAt fl u v y) ↔ 0 ≤ ori (toP u) (toP v) (corner x y)))
    (h2 : v.y ≤ y → y < u.y → (x < trunc (edgeAt fl v u y) ↔ 0 ≤ ori (toP v) (toP u) (corner x y))) :
    rc fl x y u v = cr (corner x y) (toP u) (toP v) := by
  unfold rc cr
  have e : ∀ a : Int, ((a : ℚ) ≤ (y : ℚ) ↔ a ≤ y) ∧ ((y : ℚ) < (a : ℚ) ↔ y < a) := fun a => by
    constructor <;> exact_mod_cast Iff.rfl
  have c1 : (toP u).y ≤ (corner x y).y ∧ (corner x y).y < (toP v).y ∧ 0 ≤ ori (toP u) (toP v) (corner x y) ↔
      u.y ≤ y ∧ y < v.y ∧ x < trunc (edgeAt fl u v y) := by
    show (u.y : ℚ) ≤ (y : ℚ) ∧ (y : ℚ) < (v.y : ℚ) ∧ _ ↔ _
    rw [(e _).1, (e _).2]
    constructor
    · rintro ⟨a, b, c⟩; exact ⟨a, b, (h1 a b).mpr c⟩
    · rintro ⟨a, b, c⟩; exact ⟨a, b, (h1 a b).mp c⟩
  have c2 : (toP v).y ≤ (corner x y).y ∧ (corner x y).y < (toP u).y ∧ 0 ≤ ori (toP v) (toP u) (corner x y) ↔
      v.y ≤ y ∧ y < u.y ∧ x < trunc (edgeAt fl v u y) := by
    show (v.y : ℚ) ≤ (y : ℚ) ∧ (y : ℚ) < (u.y : ℚ) ∧ _ ↔ _
    rw [(e _).1, (e _).2]
    constructor
    · rintro ⟨a, b, c⟩; exact ⟨a, b, (h2 a b).mpr c⟩
    · rintro ⟨a, b, c⟩; exact ⟨a, b, (h2 a b).mp c⟩
  simp only [c1, c2]

theorem norm_edges {t : Tri} {f g : P2 → P2 → ℤ} (hfa : Anti f) (hga : Anti g)
    (h1 : f (toP t.a) (toP t.b) = g (toP t.a) (toP t.b)) (h2 : f (toP t.b) (toP t.c) = g (toP t.b) (toP t.c))
    (h3 : f (toP t.c) (toP t.a) = g (toP t.c) (toP t.a)) : esum f (norm t) = esum g (norm t) := by
  unfold norm
  split
  · unfold esum; simp only; rw [h1, h2, h3]
  · unfold esum
    simp only
    rw [hfa (toP t.b) (toP t.a), hfa (toP t.a) (toP t.c), hfa (toP t.c) (toP t.b), h1, h2, h3,
      hga (toP t.b) (toP t.a), hga (toP t.a) (toP t.c), hga (toP t.c) (toP t.b)]

/-! ### Exact arithmetic -/

theorem span_self (a x : Int) : span a a x = 0 := by unfold span; rw [if_neg (by omega)]

theorem sorted3_degenerate {p0 p1 p2 : Pt} (h21 : p2.y ≤ p1.y) (h10 : p1.y ≤ p0.y) (hD : iori p2 p1 p0 = 0) (x y : Int) :
    sorted3 id p0 p1 p2 x y = 0 := by
  unfold sorted3
  by_cases h12 : p1.y = p2.y
  · rw [if_pos h12]
    by_cases hy : p1.y ≤ y ∧ y < p0.y
    · rw [if_pos hy]
      have : iori p2 p1 p0 = (p1.x - p2.x) * (p0.y - p2.y) := by unfold iori; rw [h12]; ring
      rw [this] at hD
      have hx : p1.x = p2.x := by
        rcases mul_eq_zero.mp hD with h | h <;> omega
      have : p1 = p2 := by cases p1; cases p2; simp_all
      rw [this]
      split <;> exact span_self _ _
    · rw [if_neg hy]
  · rw [if_neg h12]
    have d := slope_diff (p := p2) (q := p1) (r := p0) (by omega) (by omega)
    rw [hD] at d
    have hs : slope id p2 p1 = slope id p2 p0 := by
      unfold slope
      simp only [id]
      simp at d ⊢
      linarith
    rw [if_neg (show ¬ slope id p2 p1 < slope id p2 p0 by rw [hs]; exact lt_irrefl _)]
    split
    · unfold between edgeAt; rw [hs]; exact span_self _ _
    · split
      · rename_i _ hy
        unfold between
        rw [edgeAt_id (by omega), edgeAt_id (by omega)]
        have e := exact_diff (p := p1) (q := p2) (r := p0) (by omega) (by omega) y
        rw [hD] at e
        have : exact p1 p0 y = exact p2 p0 y := by simp at e; linarith
        rw [this]; split <;> exact span_self _ _
      · rfl

theorem iori_nondeg (t : Tri) : NonDegenerate t ↔ iori t.a t.b t.c ≠ 0 := by
  rw [nondeg_iff, norm_or, ← iori_ori]
  exact_mod_cast Iff.rfl

theorem not_owns_degenerate {t : Tri} (h : ¬ NonDegenerate t) (q : P2) : ¬ Owns t q := by
  rintro ⟨e0, he, hi⟩
  have := hi e0 he le_rfl
  apply h
  unfold NonDegenerate
  have s := area2_sum t ⟨q.x - e0, q.y + e0 ^ 2⟩
  rcases this with ⟨h1, h2, h3⟩ | ⟨h1, h2, h3⟩ <;> intro hz <;> rw [hz] at s <;> linarith

/-- Visits in exact arithmetic. -/
theorem vis_exact {t : Tri} {x y : Int} (ha : Fit x t.a) (hb : Fit x t.b) (hc : Fit x t.c) [Decidable (Owns t (corner x y))] :
    vis id t x y = if Owns t (corner x y) then 1 else 0 := by
  by_cases hn : NonDegenerate t
  · have ho := (nondeg_iff t).mp hn
    have h1 := vis_esum prec_id (t := t) ⟨trivial, trivial, trivial⟩ ho x y
    have key : ∀ u v : Pt, Fit x u → Fit x v → rcP id x y (toP u) (toP v) = cr (corner x y) (toP u) (toP v) := by
      intro u v hu hv
      unfold rcP
      rw [toPt_toP, toPt_toP]
      exact rc_cr (fun a b => ind_exact hu hv a b) (fun a b => ind_exact hv hu a b)
    rw [norm_edges (rcP_anti _ _ _) (cr_anti _) (key _ _ ha hb) (key _ _ hb hc) (key _ _ hc ha), esum_cr _ ho] at h1
    have := owns_iff hn (corner x y)
    by_cases hO : Owns t (corner x y)
    · rw [if_pos hO]; rw [if_pos (this.mp hO)] at h1; exact_mod_cast h1
    · rw [if_neg hO]; rw [if_neg (fun k => hO (this.mpr k))] at h1; exact_mod_cast h1
  · rw [if_neg (not_owns_degenerate hn _)]
    have hz : iori t.a t.b t.c = 0 := by
      by_contra hne; exact hn ((iori_nondeg t).mpr hne)
    unfold vis
    apply sorted3_degenerate (sortY_sorted t).1 (sortY_sorted t).2
    have hp := sortY_perm t
    generalize sortY t = s at *
    obtain ⟨p0, p1, p2⟩ := s
    simp only at *
    unfold iori at hz ⊢
    rcases perm_three hp with ⟨h1, h2, h3⟩ | ⟨h1, h2, h3⟩ | ⟨h1, h2, h3⟩ | ⟨h1, h2, h3⟩ | ⟨h1, h2, h3⟩ | ⟨h1, h2, h3⟩ <;>
      rw [h1, h2, h3] <;> linarith

/-! ### Rounded arithmetic, away from the edges -/

theorem on_edge {u v : Pt} {w q : P2} (h0 : ori (toP u) (toP v) q = 0) :
    ((v.y : ℚ) - u.y) * ori (toP v) w q = (v.y - q.y) * ori (toP u) (toP v) w ∧
    ((v.y : ℚ) - u.y) * ori w (toP u) q = (q.y - u.y) * ori (toP u) (toP v) w := by
  unfold ori toP at *
  simp only at *
  constructor
  · linear_combination (w.y - v.y) * h0
  · linear_combination (u.y - w.y) * h0

theorem closed_norm {t : Tri} {q : P2} (hq : HalfOpen (norm t) q) : Closed t q :=
  closed_of (onLeft_nonneg hq.1) (onLeft_nonneg hq.2.1) (onLeft_nonneg hq.2.2)

/-- A row crosses an edge through the location only if the location is in the closed triangle. -/
theorem closed_of_edge {a b c : Pt} {q : P2} (h1 : (a.y : ℚ) ≤ q.y) (h2 : q.y < b.y) (h0 : ori (toP a) (toP b) q = 0) :
    (0 ≤ area2 b c q ∧ 0 ≤ area2 c a q) ∨ (area2 b c q ≤ 0 ∧ area2 c a q ≤ 0) := by
  have hp : (0 : ℚ) < (b.y : ℚ) - a.y := by linarith
  obtain ⟨k1, k2⟩ := on_edge (w := toP c) h0
  rw [area2_ori, area2_ori]
  rcases le_total 0 (ori (toP a) (toP b) (toP c)) with hs | hs
  · left
    have l1 : 0 ≤ ((b.y : ℚ) - a.y) * ori (toP b) (toP c) q := by rw [k1]; exact mul_nonneg (by linarith) hs
    have l2 : 0 ≤ ((b.y : ℚ) - a.y) * ori (toP c) (toP a) q := by rw [k2]; exact mul_nonneg (by linarith) hs
    exact ⟨nonneg_of_mul_nonneg_right l1 hp, nonneg_of_mul_nonneg_right l2 hp⟩
  · right
    have l1 : ((b.y : ℚ) - a.y) * ori (toP b) (toP c) q ≤ 0 := by
      rw [k1]; exact mul_nonpos_of_nonneg_of_nonpos (by linarith) hs
    have l2 : ((b.y : ℚ) - a.y) * ori (toP c) (toP a) q ≤ 0 := by
      rw [k2]; exact mul_nonpos_of_nonneg_of_nonpos (by linarith) hs
    constructor <;> by_contra hcon <;> push Not at hcon
    · exact absurd l1 (not_le.mpr (mul_pos hp hcon))
    · exact absurd l2 (not_le.mpr (mul_pos hp hcon))

/-- Visits in rounded arithmetic where no edge passes through the deciding lattice point. -/
theorem vis_round {fl : ℚ → ℚ} (R : Rnd 53 fl) {t : Tri} (hn : NonDegenerate t)
    {x y : Int} (ha : Fit x t.a ∧ Small t.a) (hb : Fit x t.b ∧ Small t.b) (hc : Fit x t.c ∧ Small t.c)
    (hoff : ∀ u v, (u, v) ∈ [(t.a, t.b), (t.b, t.c), (t.c, t.a)] → (u.y ≤ y ∧ y < v.y) ∨ (v.y ≤ y ∧ y < u.y) →
      area2 u v (corner x y) ≠ 0) [Decidable (Owns t (corner x y))] :
    vis fl t x y = if Owns t (corner x y) then 1 else 0 := by
  have ho := (nondeg_iff t).mp hn
  have h1 := vis_esum (prec_rnd R) (t := t) ⟨ha.2, hb.2, hc.2⟩ ho x y
  have key : ∀ u v : Pt, Fit x u ∧ Small u → Fit x v ∧ Small v → (u, v) ∈ [(t.a, t.b), (t.b, t.c), (t.c, t.a)] →
      rcP fl x y (toP u) (toP v) = cr (corner x y) (toP u) (toP v) := by
    intro u v hu hv hm
    unfold rcP
    rw [toPt_toP, toPt_toP]
    refine rc_cr (fun a b => ind_rnd R hu.2 hv.2 hu.1 hv.1 a b ?_) (fun a b => ind_rnd R hv.2 hu.2 hv.1 hu.1 a b ?_)
    · have := hoff u v hm (Or.inl ⟨a, b⟩)
      rwa [area2_ori] at this
    · have := hoff u v hm (Or.inr ⟨a, b⟩)
      rw [area2_ori] at this
      rw [ori_swap]
      exact neg_ne_zero.mpr this
  rw [norm_edges (rcP_anti _ _ _) (cr_anti _) (key _ _ ha hb (by simp)) (key _ _ hb hc (by simp)) (key _ _ hc ha (by simp)),
    esum_cr _ ho] at h1
  have := owns_iff hn (corner x y)
  by_cases hO : Owns t (corner x y)
  · rw [if_pos hO]; rw [if_pos (this.mp hO)] at h1; exact_mod_cast h1
  · rw [if_neg hO]; rw [if_neg (fun k => hO (this.mpr k))] at h1; exact_mod_cast h1

theorem vis_interior {fl : ℚ → ℚ} (R : Rnd 53 fl) {t : Tri}
    {x y : Int} (ha : Fit x t.a ∧ Small t.a) (hb : Fit x t.b ∧ Small t.b) (hc : Fit x t.c ∧ Small t.c)
    (hi : Interior t (corner x y)) : vis fl t x y = 1 := by
  classical
  have hn : NonDegenerate t := by
    unfold NonDegenerate
    have s := area2_sum t (corner x y)
    rcases hi with ⟨h1, h2, h3⟩ | ⟨h1, h2, h3⟩ <;> intro hz <;> rw [hz] at s <;> linarith
  have a := (interior_iff hn _).mp hi
  have hO : Owns t (corner x y) := (owns_iff hn _).mpr (.of_interior a.1 a.2.1 a.2.2)
  rw [vis_round R hn ha hb hc, if_pos hO]
  intro u v hm _
  simp only [List.mem_cons, Prod.mk.injEq, List.not_mem_nil, or_false] at hm
  rcases hi with ⟨h1, h2, h3⟩ | ⟨h1, h2, h3⟩ <;> rcases hm with ⟨rfl, rfl⟩ | ⟨rfl, rfl⟩ | ⟨rfl, rfl⟩ <;> linarith

theorem vis_closed {fl : ℚ → ℚ} (R : Rnd 53 fl) {t : Tri} (hn : NonDegenerate t)
    {x y : Int} (ha : Fit x t.a ∧ Small t.a) (hb : Fit x t.b ∧ Small t.b) (hc : Fit x t.c ∧ Small t.c)
    (hv : vis fl t x y ≠ 0) : Closed t (corner x y) := by
  classical
  by_contra hcl
  apply hv
  rw [vis_round R hn ha hb hc, if_neg]
  · exact fun h => hcl (closed_norm ((owns_iff hn _).mp h))
  · intro u v hm hy hz
    apply hcl
    unfold Closed
    have cy : (corner x y).y = (y : ℚ) := rfl
    have cast : ∀ {p q : Pt}, p.y ≤ y → y < q.y → ((p.y : ℚ) ≤ (corner x y).y ∧ (corner x y).y < (q.y : ℚ)) := by
      intro p q h1 h2
      rw [cy]
      exact ⟨by exact_mod_cast h1, by exact_mod_cast h2⟩
    have swp : ∀ p q : Pt, area2 p q (corner x y) = - area2 q p (corner x y) := by
      intro p q; unfold area2; ring
    have cl : ∀ p q r : Pt, (p.y ≤ y ∧ y < q.y) ∨ (q.y ≤ y ∧ y < p.y) → area2 p q (corner x y) = 0 →
        (0 ≤ area2 q r (corner x y) ∧ 0 ≤ area2 r p (corner x y)) ∨ (area2 q r (corner x y) ≤ 0 ∧ area2 r p (corner x y) ≤ 0) := by
      intro p q r h hz
      rcases h with ⟨h1, h2⟩ | ⟨h1, h2⟩
      · exact closed_of_edge (cast h1 h2).1 (cast h1 h2).2 (by rw [← area2_ori]; exact hz)
      · have := closed_of_edge (c := r) (cast h1 h2).1 (cast h1 h2).2 (by rw [← area2_ori, swp, hz, neg_zero])
        rw [swp q r, swp r p]
        rcases this with ⟨k1, k2⟩ | ⟨k1, k2⟩
        · right; exact ⟨by linarith, by linarith⟩
        · left; exact ⟨by linarith, by linarith⟩
    simp only [List.mem_cons, Prod.mk.injEq, List.not_mem_nil, or_false] at hm
    rcases hm with ⟨rfl, rfl⟩ | ⟨rfl, rfl⟩ | ⟨rfl, rfl⟩
    · rcases cl t.a t.b t.c hy hz with ⟨k1, k2⟩ | ⟨k1, k2⟩
      · left; exact ⟨hz.ge, k1, k2⟩
      · right; exact ⟨hz.le, k1, k2⟩
    · rcases cl t.b t.c t.a hy hz with ⟨k1, k2⟩ | ⟨k1, k2⟩
      · left; exact ⟨k2, hz.ge, k1⟩
      · right; exact ⟨k2, hz.le, k1⟩
    · rcases cl t.c t.a t.b hy hz with ⟨k1, k2⟩ | ⟨k1, k2⟩
      · left; exact ⟨k1, k2, hz.ge⟩
      · right; exact ⟨k1, k2, hz.le⟩

end Verif.Raster

import Verif.Raster.Cut
import Verif.Incr.Facts
import Mathlib.Data.List.Permutation

/-!
# Visits of a triangle as a sum over its edges; tiling
-/

namespace Verif.Raster

open Verif.Incr Verif.Float Verif.Tri Verif.Spec

/-- Number of visits of a pixel. -/
def vis (fl : ℚ → ℚ) (t : Tri) (x y : Int) : Nat := sorted3 fl (sortY t).1 (sortY t).2.1 (sortY t).2.2 x y

theorem count_lines {fl : ℚ → ℚ} (hm : Monotone fl) (z : ℚ) (bs : Nat) (t : Tri) (x y : Int) :
    ((DDATriangleLines fl z t).flatMap (Ev.pixels bs)).count (x, y) = vis fl t x y := by
  rw [count_visits, lines_sorted fl hm]; rfl

theorem count_blocks {fl : ℚ → ℚ} (hm : Monotone fl) (z : ℚ) {bs : Nat} (hb : 0 < bs) (t : Tri) (x y : Int) :
    ((DDATriangleBlocks fl z t bs).flatMap (Ev.pixels bs)).count (x, y) = vis fl t x y := by
  rw [count_visits, blocks_sorted fl hm z bs hb]; rfl

/-! ### Vertex order -/

theorem sorted3_zero (fl : ℚ → ℚ) {a b c : Pt} (h1 : a.y = b.y) (h2 : b.y = c.y) (x y : Int) : sorted3 fl a b c x y = 0 := by
  unfold sorted3
  rw [if_pos h2, if_neg (by omega)]

theorem sorted3_12 (fl : ℚ → ℚ) {a b c : Pt} (h : b.y = c.y) (x y : Int) : sorted3 fl a b c x y = sorted3 fl a c b x y := by
  unfold sorted3
  rw [if_pos h, if_pos h.symm, h]
  split
  · rcases lt_trichotomy b.x c.x with k | k | k
    · rw [if_neg (by omega), if_pos k]
    · have : b = c := by cases b; cases c; simp_all
      rw [this]
    · rw [if_pos k, if_neg (by omega)]
  · rfl

theorem sorted3_01 (fl : ℚ → ℚ) {a b c : Pt} (h : a.y = b.y) (x y : Int) : sorted3 fl a b c x y = sorted3 fl b a c x y := by
  by_cases hbc : b.y = c.y
  · rw [sorted3_zero fl h hbc, sorted3_zero fl h.symm (by omega)]
  · unfold sorted3
    rw [if_neg hbc, if_neg (show ¬ a.y = c.y by omega), h]
    by_cases hy : c.y ≤ y ∧ y < b.y
    · rw [if_pos hy, if_pos hy]
      rcases lt_trichotomy (slope fl c b) (slope fl c a) with k | k | k
      · rw [if_pos k, if_neg (not_lt.mpr k.le)]
      · rw [if_neg (show ¬ slope fl c b < slope fl c a by rw [k]; exact lt_irrefl _),
          if_neg (show ¬ slope fl c a < slope fl c b by rw [k]; exact lt_irrefl _)]
        unfold between edgeAt
        rw [k]
      · rw [if_neg (not_lt.mpr k.le), if_pos k]
    · rw [if_neg hy, if_neg hy, if_neg (show ¬ (b.y ≤ y ∧ y < b.y) by omega)]
      rw [if_neg (show ¬ (b.y ≤ y ∧ y < b.y) by omega)]

theorem perm_three {α : Type*} {a b c a' b' c' : α} (h : [a', b', c'].Perm [a, b, c]) :
    (a' = a ∧ b' = b ∧ c' = c) ∨ (a' = b ∧ b' = a ∧ c' = c) ∨ (a' = b ∧ b' = c ∧ c' = a) ∨
    (a' = a ∧ b' = c ∧ c' = b) ∨ (a' = c ∧ b' = a ∧ c' = b) ∨ (a' = c ∧ b' = b ∧ c' = a) := by
  rw [← List.mem_permutations'] at h
  simpa [List.permutations'] using h

/-- The sorted order does not matter. -/
theorem sorted3_perm (fl : ℚ → ℚ) {a b c a' b' c' : Pt} (hp : [a', b', c'].Perm [a, b, c]) (h1 : c.y ≤ b.y) (h2 : b.y ≤ a.y)
    (h1' : c'.y ≤ b'.y) (h2' : b'.y ≤ a'.y) (x y : Int) : sorted3 fl a' b' c' x y = sorted3 fl a b c x y := by
  rcases perm_three hp with ⟨rfl, rfl, rfl⟩ | ⟨rfl, rfl, rfl⟩ | ⟨rfl, rfl, rfl⟩ | ⟨rfl, rfl, rfl⟩ | ⟨rfl, rfl, rfl⟩ | ⟨rfl, rfl, rfl⟩
  · rfl
  · exact sorted3_01 fl (by omega) x y
  · rw [sorted3_zero fl (by omega) (by omega), sorted3_zero fl (by omega) (by omega)]
  · exact sorted3_12 fl (by omega) x y
  · rw [sorted3_zero fl (by omega) (by omega), sorted3_zero fl (by omega) (by omega)]
  · rw [sorted3_zero fl (by omega) (by omega), sorted3_zero fl (by omega) (by omega)]

theorem sortY_perm (t : Tri) : [(sortY t).1, (sortY t).2.1, (sortY t).2.2].Perm [t.a, t.b, t.c] := by
  rw [← List.mem_permutations']
  unfold sortY
  by_cases h1 : t.a.y < t.b.y <;> by_cases h2 : t.a.y < t.c.y <;> by_cases h3 : t.b.y < t.c.y <;>
    simp [h1, h2, h3, List.permutations']

theorem vis_perm (fl : ℚ → ℚ) {t t' : Tri} (hp : [t'.a, t'.b, t'.c].Perm [t.a, t.b, t.c]) (x y : Int) :
    vis fl t' x y = vis fl t x y :=
  sorted3_perm fl (((sortY_perm t').trans hp).trans (sortY_perm t).symm) (sortY_sorted t).1 (sortY_sorted t).2
    (sortY_sorted t').1 (sortY_sorted t').2 x y

/-! ### Visits as a sum over edges -/

/-- All vertices satisfy `P`. -/
def AllT (P : Pt → Prop) (t : Tri) : Prop := P t.a ∧ P t.b ∧ P t.c

/-- Sum of the crossings around a triangle. -/
def rsum (fl : ℚ → ℚ) (x y : Int) (a b c : Pt) : ℤ := rc fl x y a b + rc fl x y b c + rc fl x y c a

theorem vis_rsum {fl : ℚ → ℚ} {P : Pt → Prop} (Q : Prec fl P) {a b c : Pt} (sa : P a) (sb : P b) (sc : P c)
    (h : 0 < iori a b c) (x y : Int) : (vis fl ⟨a, b, c⟩ x y : ℤ) = rsum fl x y a b c := by
  obtain ⟨o1, o2⟩ := sortY_sorted ⟨a, b, c⟩
  have hp := sortY_perm ⟨a, b, c⟩
  unfold vis
  generalize sortY ⟨a, b, c⟩ = s at *
  obtain ⟨p0, p1, p2⟩ := s
  simp only at *
  have A := fun u v => rc_anti fl x y u v
  have hh : ∀ u v w : Pt, iori u v w = iori v w u ∧ iori u v w = - iori v u w := by
    intro u v w; unfold iori; constructor <;> ring
  unfold rsum
  rcases perm_three hp with ⟨rfl, rfl, rfl⟩ | ⟨rfl, rfl, rfl⟩ | ⟨rfl, rfl, rfl⟩ | ⟨rfl, rfl, rfl⟩ | ⟨rfl, rfl, rfl⟩ | ⟨rfl, rfl, rfl⟩
  · rw [(sorted_rc Q sa sb sc o1 o2 x y).2 (by have := hh p0 p1 p2; have := hh p1 p2 p0; have := hh p2 p1 p0; omega),
      A p2 p1, A p1 p0, A p0 p2]; ring
  · rw [(sorted_rc Q sb sa sc o1 o2 x y).1 (by have := hh p1 p0 p2; have := hh p0 p2 p1; have := hh p2 p1 p0; omega)]; ring
  · rw [(sorted_rc Q sb sc sa o1 o2 x y).2 (by have := hh p2 p0 p1; have := hh p0 p1 p2; have := hh p2 p1 p0; have := hh p1 p2 p0; omega),
      A p2 p1, A p1 p0, A p0 p2]; ring
  · rw [(sorted_rc Q sa sc sb o1 o2 x y).1 (by have := hh p0 p2 p1; have := hh p2 p1 p0; omega)]; ring
  · rw [(sorted_rc Q sc sa sb o1 o2 x y).2 (by have := hh p1 p2 p0; have := hh p2 p0 p1; have := hh p2 p1 p0; omega),
      A p2 p1, A p1 p0, A p0 p2]; ring
  · rw [(sorted_rc Q sc sb sa o1 o2 x y).1 (by have := hh p2 p1 p0; omega)]

theorem iori_ori (a b c : Pt) : (iori a b c : ℚ) = ori (toP a) (toP b) (toP c) := by
  unfold iori ori toP; push_cast; ring

/-- Back from the plane to integer points. -/
def toPt (p : P2) : Pt := ⟨⌊p.x⌋, ⌊p.y⌋⟩

theorem toPt_toP (p : Pt) : toPt (toP p) = p := by
  unfold toPt toP; simp

/-- Crossings as an edge function of the plane. -/
def rcP (fl : ℚ → ℚ) (x y : Int) (u v : P2) : ℤ := rc fl x y (toPt u) (toPt v)

theorem rcP_anti (fl : ℚ → ℚ) (x y : Int) : Anti (rcP fl x y) := fun _ _ => rc_anti _ _ _ _ _

theorem vis_esum {fl : ℚ → ℚ} {P : Pt → Prop} (Q : Prec fl P) {t : Tri} (s : AllT P t) (h : 0 < (norm t).or) (x y : Int) :
    (vis fl t x y : ℤ) = esum (rcP fl x y) (norm t) := by
  have hn := (norm_or t).mp h
  unfold norm
  split
  · rename_i hp
    have := vis_rsum Q s.1 s.2.1 s.2.2 (by have := iori_ori t.a t.b t.c; rw [← this] at hp; exact_mod_cast hp) x y
    rw [show t = ⟨t.a, t.b, t.c⟩ from rfl, this]
    unfold esum rsum rcP
    simp only [toPt_toP]
  · rename_i hp
    have hlt : 0 < ori (toP t.b) (toP t.a) (toP t.c) := by
      rw [ori_swap]
      have := lt_of_le_of_ne (not_lt.mp hp) hn
      linarith
    have := vis_rsum Q s.2.1 s.1 s.2.2 (by have := iori_ori t.b t.a t.c; rw [← this] at hlt; exact_mod_cast hlt) x y
    rw [← vis_perm fl (t := t) (t' := ⟨t.b, t.a, t.c⟩) (List.Perm.swap _ _ _), this]
    unfold esum rsum rcP
    simp only [toPt_toP]

theorem vis_le_one {fl : ℚ → ℚ} {t : Tri} (x y : Int) : vis fl t x y ≤ 1 := by
  unfold vis sorted3 between span
  split_ifs <;> omega

/-- Total visits of a list of triangles. -/
theorem vis_chain {fl : ℚ → ℚ} {P : Pt → Prop} (Q : Prec fl P) {s : T3} {T : List Tri} (hs : ∀ t ∈ T, AllT P t) (ho : ∀ t ∈ T, 0 < (norm t).or)
    (hc : Chain s (T.map norm)) (x y : Int) : (((T.map fun t => vis fl t x y).sum : Nat) : ℤ) = esum (rcP fl x y) s := by
  rw [← hc _ (rcP_anti fl x y)]
  clear hc
  induction T with
  | nil => rfl
  | cons t T ih =>
    have := ih (fun u hu => hs u (List.mem_cons_of_mem _ hu)) (fun u hu => ho u (List.mem_cons_of_mem _ hu))
    simp only [List.map_cons, List.sum_cons, tsum_cons]
    rw [← vis_esum Q (hs t List.mem_cons_self) (ho t List.mem_cons_self), ← this]
    push_cast; rfl

/-! ### Two triangles at an edge -/

theorem ind_le {fl : ℚ → ℚ} {a b c d : Pt} {x y : Int} (h : edgeAt fl a b y ≤ edgeAt fl c d y) :
    ind fl a b x y ≤ ind fl c d x y := by
  have := trunc_mono h
  unfold ind
  split_ifs <;> omega

theorem ind_01 (fl : ℚ → ℚ) (a b : Pt) (x y : Int) : 0 ≤ ind fl a b x y ∧ ind fl a b x y ≤ 1 := by
  unfold ind; split_ifs <;> omega

theorem ind_anti (fl : ℚ → ℚ) (a b : Pt) {x x' : Int} (y : Int) (h : x ≤ x') : ind fl a b x' y ≤ ind fl a b x y := by
  unfold ind; split_ifs <;> omega

theorem above_cross {a b c d : Pt} (hab : a.y ≤ b.y) (h1 : 0 < iori a b c) (h2 : 0 < iori b a d) (hc : b.y < c.y) (hd : b.y < d.y) :
    0 ≤ iori b d c := by
  have e1 : iori a b c = (b.x - a.x) * (c.y - b.y) - (b.y - a.y) * (c.x - b.x) := by unfold iori; ring
  have e2 : iori b a d = (b.y - a.y) * (d.x - b.x) - (b.x - a.x) * (d.y - b.y) := by unfold iori; ring
  have e3 : iori b d c = (d.x - b.x) * (c.y - b.y) - (d.y - b.y) * (c.x - b.x) := rfl
  rw [e1] at h1
  rw [e2] at h2
  rw [e3]
  generalize b.x - a.x = ux at *
  generalize hc' : c.y - b.y = cy at *
  generalize hd' : d.y - b.y = dy at *
  generalize hu' : b.y - a.y = uy at *
  generalize c.x - b.x = cx at *
  generalize d.x - b.x = dx at *
  have cp : 0 < cy := by omega
  have dp : 0 < dy := by omega
  have up : 0 ≤ uy := by omega
  by_contra hn
  push Not at hn
  rcases up.lt_or_eq with hu | hu
  · nlinarith [mul_pos h1 dp, mul_pos h2 cp, mul_pos hu (neg_pos.mpr hn)]
  · subst hu
    have : 0 < ux := by by_contra hh; nlinarith
    nlinarith

theorem below_cross {a b c d : Pt} (hab : a.y ≤ b.y) (h1 : 0 < iori a b c) (h2 : 0 < iori b a d) (hc : c.y < a.y) (hd : d.y < a.y) :
    0 < iori c d a := by
  have e1 : iori a b c = (b.y - a.y) * (a.x - c.x) - (b.x - a.x) * (a.y - c.y) := by unfold iori; ring
  have e2 : iori b a d = (b.x - a.x) * (a.y - d.y) - (b.y - a.y) * (a.x - d.x) := by unfold iori; ring
  have e3 : iori c d a = (a.x - c.x) * (a.y - d.y) - (a.y - c.y) * (a.x - d.x) := by unfold iori; ring
  rw [e1] at h1
  rw [e2] at h2
  rw [e3]
  generalize b.x - a.x = ux at *
  generalize hc' : a.y - c.y = cy at *
  generalize hd' : a.y - d.y = dy at *
  generalize hu' : b.y - a.y = uy at *
  generalize a.x - c.x = cx at *
  generalize a.x - d.x = dx at *
  have cp : 0 < cy := by omega
  have dp : 0 < dy := by omega
  have up : 0 ≤ uy := by omega
  by_contra hn
  push Not at hn
  rcases up.lt_or_eq with hu | hu
  · nlinarith [mul_pos h1 dp, mul_pos h2 cp, mul_nonneg hu.le (neg_nonneg.mpr hn)]
  · subst hu
    have : 0 < ux := by by_contra hh; nlinarith
    nlinarith

/-- Row of a triangle `a b c` that crosses the edge from `a` up to `b`. -/
theorem rsum_cross (fl : ℚ → ℚ) {a b : Pt} (c : Pt) {y : Int} (h1 : a.y ≤ y) (h2 : y < b.y) :
    ∃ p q : Pt, ∀ x, rsum fl x y a b c = ind fl a b x y - ind fl p q x y ∧ rsum fl x y b a c = ind fl p q x y - ind fl a b x y := by
  by_cases hc : c.y ≤ y
  · refine ⟨c, b, fun x => ?_⟩
    unfold rsum
    rw [rc_up h1 h2, rc_down hc h2, rc_off (show (y < c.y ∧ y < a.y) ∨ (c.y ≤ y ∧ a.y ≤ y) by omega),
      rc_down h1 h2, rc_off (show (y < a.y ∧ y < c.y) ∨ (a.y ≤ y ∧ c.y ≤ y) by omega), rc_up hc h2]
    constructor <;> ring
  · refine ⟨a, c, fun x => ?_⟩
    unfold rsum
    rw [rc_up h1 h2, rc_off (show (y < b.y ∧ y < c.y) ∨ (b.y ≤ y ∧ c.y ≤ y) by omega), rc_down h1 (by omega),
      rc_down h1 h2, rc_up h1 (by omega), rc_off (show (y < c.y ∧ y < b.y) ∨ (c.y ≤ y ∧ b.y ≤ y) by omega)]
    constructor <;> ring

theorem pair_up {fl : ℚ → ℚ} {P : Pt → Prop} (Q : Prec fl P) {a b c d : Pt} (sa : P a) (sc : P c) (sd : P d)
    (hab : a.y ≤ b.y) (h1 : 0 < iori a b c) (h2 : 0 < iori b a d) (x y : Int) :
    ¬ (rsum fl x y a b c = 1 ∧ rsum fl x y b a d = 1) := by
  have hm : Monotone fl := Q.mono
  rintro ⟨e1, e2⟩
  by_cases hy1 : y < a.y
  · unfold rsum at e1 e2
    rw [rc_off (show (y < a.y ∧ y < b.y) ∨ (a.y ≤ y ∧ b.y ≤ y) by omega)] at e1
    rw [rc_off (show (y < b.y ∧ y < a.y) ∨ (b.y ≤ y ∧ a.y ≤ y) by omega)] at e2
    by_cases hc : c.y ≤ y
    · by_cases hd : d.y ≤ y
      · rw [rc_down hc (by omega), rc_up hc hy1] at e1
        rw [rc_down hd hy1, rc_up hd (by omega)] at e2
        have x1 := exact_top (p := d) (q := c) (r := a) (by omega) (by omega)
          (below_cross hab h1 h2 (by omega) (by omega)) hy1
        have := ind_le (x := x) (Q.cut sc sa sd sa (by omega) (by omega) hc (by omega) hd (by omega) x1)
        have := ind_01 fl c b x y
        have := ind_01 fl c a x y
        have := ind_01 fl d a x y
        have := ind_01 fl d b x y
        omega
      · rw [rc_off (show (y < a.y ∧ y < d.y) ∨ (a.y ≤ y ∧ d.y ≤ y) by omega),
          rc_off (show (y < d.y ∧ y < b.y) ∨ (d.y ≤ y ∧ b.y ≤ y) by omega)] at e2
        omega
    · rw [rc_off (show (y < b.y ∧ y < c.y) ∨ (b.y ≤ y ∧ c.y ≤ y) by omega),
        rc_off (show (y < c.y ∧ y < a.y) ∨ (c.y ≤ y ∧ a.y ≤ y) by omega)] at e1
      omega
  · by_cases hy2 : y < b.y
    · obtain ⟨p, q, k1⟩ := rsum_cross fl c (not_lt.mp hy1) hy2
      obtain ⟨p', q', k2⟩ := rsum_cross fl d (not_lt.mp hy1) hy2
      rw [(k1 x).1] at e1
      rw [(k2 x).2] at e2
      have := ind_01 fl p q x y
      have := ind_01 fl p' q' x y
      have := ind_01 fl a b x y
      omega
    · unfold rsum at e1 e2
      rw [rc_off (show (y < a.y ∧ y < b.y) ∨ (a.y ≤ y ∧ b.y ≤ y) by omega)] at e1
      rw [rc_off (show (y < b.y ∧ y < a.y) ∨ (b.y ≤ y ∧ a.y ≤ y) by omega)] at e2
      by_cases hc : y < c.y
      · by_cases hd : y < d.y
        · rw [rc_up (by omega) hc, rc_down (by omega) hc] at e1
          rw [rc_up (by omega) hd, rc_down (by omega) hd] at e2
          have := ind_le (x := x) (edge_base hm (p := b) (q := d) (r := c) (by omega) (by omega)
            (above_cross hab h1 h2 (by omega) (by omega)) (y := y) (by omega))
          have := ind_01 fl b c x y
          have := ind_01 fl a c x y
          have := ind_01 fl a d x y
          have := ind_01 fl b d x y
          omega
        · rw [rc_off (show (y < a.y ∧ y < d.y) ∨ (a.y ≤ y ∧ d.y ≤ y) by omega),
            rc_off (show (y < d.y ∧ y < b.y) ∨ (d.y ≤ y ∧ b.y ≤ y) by omega)] at e2
          omega
      · rw [rc_off (show (y < b.y ∧ y < c.y) ∨ (b.y ≤ y ∧ c.y ≤ y) by omega),
          rc_off (show (y < c.y ∧ y < a.y) ∨ (c.y ≤ y ∧ a.y ≤ y) by omega)] at e1
        omega

theorem rsum_rot (fl : ℚ → ℚ) (x y : Int) (a b c : Pt) : rsum fl x y b c a = rsum fl x y a b c := by
  unfold rsum; ring

theorem pair_disjoint {fl : ℚ → ℚ} {P : Pt → Prop} (Q : Prec fl P) {a b c d : Pt} (sa : P a) (sb : P b) (sc : P c) (sd : P d)
    (h1 : 0 < iori a b c) (h2 : 0 < iori b a d) (x y : Int) :
    vis fl ⟨a, b, c⟩ x y + vis fl ⟨b, a, d⟩ x y ≤ 1 := by
  have v1 := vis_rsum Q sa sb sc h1 x y
  have v2 := vis_rsum Q sb sa sd h2 x y
  have l1 := vis_le_one (fl := fl) (t := ⟨a, b, c⟩) x y
  have l2 := vis_le_one (fl := fl) (t := ⟨b, a, d⟩) x y
  by_contra hcon
  have z1 : rsum fl x y a b c = 1 := by omega
  have z2 : rsum fl x y b a d = 1 := by omega
  rcases le_total a.y b.y with hab | hab
  · exact pair_up Q sa sc sd hab h1 h2 x y ⟨z1, z2⟩
  · exact pair_up Q sb sd sc hab h2 h1 x y ⟨z2, z1⟩

/-- In a row that crosses the common edge there is no gap between the two triangles. -/
theorem pair_no_gap {fl : ℚ → ℚ} {P : Pt → Prop} (Q : Prec fl P) {a b c d : Pt} (sa : P a) (sb : P b) (sc : P c) (sd : P d)
    (h1 : 0 < iori a b c) (h2 : 0 < iori b a d) {y : Int} (hy : (a.y ≤ y ∧ y < b.y) ∨ (b.y ≤ y ∧ y < a.y))
    {x1 x2 x : Int} (e1 : vis fl ⟨a, b, c⟩ x1 y = 1) (e2 : vis fl ⟨b, a, d⟩ x2 y = 1)
    (hx : (x1 ≤ x ∧ x ≤ x2) ∨ (x2 ≤ x ∧ x ≤ x1)) : vis fl ⟨a, b, c⟩ x y + vis fl ⟨b, a, d⟩ x y = 1 := by
  have v1 := fun x => vis_rsum Q sa sb sc h1 x y
  have v2 := fun x => vis_rsum Q sb sa sd h2 x y
  have dj := pair_disjoint Q sa sb sc sd h1 h2 x y
  have w1 := v1 x1
  have w2 := v2 x2
  have w3 := v1 x
  have w4 := v2 x
  rcases hy with ⟨ha, hb⟩ | ⟨hb, ha⟩
  · obtain ⟨p, q, k1⟩ := rsum_cross fl c ha hb
    obtain ⟨p', q', k2⟩ := rsum_cross fl d ha hb
    rw [(k1 _).1] at w1 w3
    rw [(k2 _).2] at w2 w4
    have i1 := ind_01 fl p q x1 y
    have i2 := ind_01 fl a b x1 y
    have i3 := ind_01 fl p' q' x2 y
    have i4 := ind_01 fl a b x2 y
    have i5 := ind_01 fl p q x y
    have i6 := ind_01 fl a b x y
    have i7 := ind_01 fl p' q' x y
    rcases hx with ⟨g1, g2⟩ | ⟨g1, g2⟩
    · have := ind_anti fl p q y g1
      have := ind_anti fl p' q' y g2
      omega
    · have := ind_anti fl a b y (le_trans g1 g2)
      omega
  · obtain ⟨p, q, k1⟩ := rsum_cross fl c hb ha
    obtain ⟨p', q', k2⟩ := rsum_cross fl d hb ha
    rw [(k1 _).2] at w1 w3
    rw [(k2 _).1] at w2 w4
    have i1 := ind_01 fl p q x1 y
    have i2 := ind_01 fl b a x1 y
    have i3 := ind_01 fl p' q' x2 y
    have i4 := ind_01 fl b a x2 y
    have i5 := ind_01 fl p q x y
    have i6 := ind_01 fl b a x y
    have i7 := ind_01 fl p' q' x y
    rcases hx with ⟨g1, g2⟩ | ⟨g1, g2⟩
    · have := ind_anti fl b a y (le_trans g1 g2)
      omega
    · have := ind_anti fl p q y g2
      have := ind_anti fl p' q' y g1
      omega

end Verif.Raster

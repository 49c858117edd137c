import Verif.Tri.Insert
import Verif.Tri.Cycle

/-!
# Filling the hole left by a removed point (Devillers' ear queue)
-/

namespace Verif.Tri

/-- Power function vanishing at `u v` with value `-σ` at `p`. -/
def cq (p : P2) (σ : ℚ) (u v : P2) : Pw :=
  let f := pwT p u v
  let k := σ / ori p u v
  ⟨f.al + k * (v.y - u.y), f.be - k * (v.x - u.x), f.ga + k * ((v.x - u.x) * u.y - (v.y - u.y) * u.x)⟩

theorem cq_ev (p : P2) (σ : ℚ) (u v x : P2) :
    (cq p σ u v).ev x = (pwT p u v).ev x - σ / ori p u v * ori u v x := by
  unfold cq Pw.ev; simp only
  generalize σ / ori p u v = k
  unfold ori; ring

theorem cq_u {p u v : P2} (σ : ℚ) (h : ori p u v ≠ 0) : (cq p σ u v).ev u = 0 := by
  rw [cq_ev, pwT_b _ _ _ h]; simp

theorem cq_v {p u v : P2} (σ : ℚ) (h : ori p u v ≠ 0) : (cq p σ u v).ev v = 0 := by
  rw [cq_ev, pwT_c _ _ _ h]; simp

theorem cq_p {p u v : P2} (σ : ℚ) (h : ori p u v ≠ 0) : (cq p σ u v).ev p = -σ := by
  rw [cq_ev, pwT_a, ori_rot p u v]; field_simp; ring

theorem cq_unique {p u v : P2} {σ : ℚ} (h : ori p u v ≠ 0) {Q : Pw} (hu : Q.ev u = 0)
    (hv : Q.ev v = 0) (hp : Q.ev p = -σ) (x : P2) : (cq p σ u v).ev x = Q.ev x :=
  Pw.unique _ _ p u v h (by rw [cq_p σ h, hp]) (by rw [cq_u σ h, hu]) (by rw [cq_v σ h, hv]) x

theorem cq_mono {p u v : P2} {σ σ' : ℚ} (h : 0 < ori p u v) (hs : σ ≤ σ') {x : P2}
    (hx : ori u v x ≤ 0) : (cq p σ u v).ev x ≤ (cq p σ' u v).ev x := by
  rw [cq_ev, cq_ev]
  have h1 : σ / ori p u v ≤ σ' / ori p u v := by gcongr
  nlinarith

/-- Plücker relation for directions seen from `p`. -/
theorem plucker (p a b c d : P2) :
    ori p a b * ori p c d - ori p a c * ori p b d + ori p a d * ori p b c = 0 := by
  unfold ori; ring

theorem ori_expand (p a b c : P2) : ori a b c = ori p a b + ori p b c - ori p a c := by
  unfold ori; ring

/-- The hull is star-shaped around `p`, at level `σ`. -/
structure Star (W : P2 → Prop) (p : P2) (σ : ℚ) (h : List P2) : Prop where
  ne : h ≠ []
  pos : ∀ u v, (u, v) ∈ cyc h → 0 < ori p u v
  only : ∀ u v, (u, v) ∈ cyc h → ∀ x ∈ h, 0 ≤ ori p u x → 0 ≤ ori p x v → x = u ∨ x = v
  beyond : ∀ u v, (u, v) ∈ cyc h → ∀ x, W x → 0 ≤ ori p u x → 0 ≤ ori p x v → ori u v x ≤ 0
  supp : ∀ u v, (u, v) ∈ cyc h → ∀ x, W x → 0 ≤ (cq p σ u v).ev x

/-- The hull is on a common empty circle, in counterclockwise order. -/
structure Circ (W : P2 → Prop) (h : List P2) : Prop where
  circle : ∃ Q : Pw, (∀ x ∈ h, Q.ev x = 0) ∧ ∀ x, W x → 0 ≤ Q.ev x
  conv : ∀ x y z, [x, y, z].Sublist h → 0 < ori x y z

/-- Not all members of the cycle are on one side of a line through `p`. -/
theorem not_all_pos {p : P2} {h : List P2} (hne : h ≠ []) (pos : ∀ u v, (u, v) ∈ cyc h → 0 < ori p u v)
    (y : P2) : ¬ ∀ u ∈ h, 0 < ori p u y := by
  intro hall
  obtain ⟨x, hx⟩ := List.exists_mem_of_ne_nil h hne
  obtain ⟨z, hz⟩ := cyc_irrefl (R := fun u v => 0 < ori p u v) (S := fun u => 0 < ori p u y) (l := h)
    (by
      intro a b c ha hb hc hab hbc
      have := plucker p a b c y
      have h1 := mul_pos hab hc
      have h2 := mul_pos ha hbc
      have h3 : 0 < ori p a c * ori p b y := by linarith
      exact (pos_iff_pos_of_mul_pos h3).mpr hb) pos hall hx
  simp at hz

theorem not_all_neg {p : P2} {h : List P2} (hne : h ≠ []) (pos : ∀ u v, (u, v) ∈ cyc h → 0 < ori p u v)
    (y : P2) : ¬ ∀ u ∈ h, ori p u y < 0 := by
  intro hall
  obtain ⟨x, hx⟩ := List.exists_mem_of_ne_nil h hne
  obtain ⟨z, hz⟩ := cyc_irrefl (R := fun u v => 0 < ori p u v) (S := fun u => ori p u y < 0) (l := h)
    (by
      intro a b c ha hb hc hab hbc
      have := plucker p a b c y
      have h1 := mul_pos hab (neg_pos.mpr hc)
      have h2 := mul_pos (neg_pos.mpr ha) hbc
      have h3 : 0 < ori p a c * (-ori p b y) := by linarith
      exact (pos_iff_pos_of_mul_pos h3).mpr (neg_pos.mpr hb)) pos hall hx
  simp at hz

/-- Two consecutive cone functions compared on the left of the common spoke. -/
theorem cone_step {p u v w : P2} {σ : ℚ} (h1 : 0 < ori p u v) (h2 : 0 < ori p v w) (x : P2) :
    ori p v w * ((cq p σ v w).ev x - (cq p σ u v).ev x) = - (ori p v x * (cq p σ u v).ev w) := by
  have := Pw.bary (cq p σ v w) (cq p σ u v) p v w x
  rw [cq_p σ h1.ne', cq_p σ h2.ne', cq_u σ h2.ne', cq_v σ h1.ne', cq_v σ h2.ne'] at this
  linarith

/-- Locally convex spokes imply that the minimum of the cone functions at `x` is attained on a
cone containing `x`. -/
theorem exists_min_cone {p : P2} {σ : ℚ} {h : List P2} (hn : h.Nodup) (hne : h ≠ [])
    (pos : ∀ u v, (u, v) ∈ cyc h → 0 < ori p u v)
    (loc : ∀ u v w, (u, v) ∈ cyc h → (v, w) ∈ cyc h → 0 ≤ (cq p σ u v).ev w) (x : P2) :
    ∃ a b, (a, b) ∈ cyc h ∧ 0 ≤ ori p a x ∧ 0 ≤ ori p x b ∧
      ∀ u v, (u, v) ∈ cyc h → (cq p σ a b).ev x ≤ (cq p σ u v).ev x := by
  have hcn : cyc h ≠ [] := by
    intro h0
    have := cyc_length h
    rw [h0] at this
    exact hne (List.length_eq_zero_iff.mp this.symm)
  obtain ⟨e, he, hmin⟩ : ∃ e ∈ cyc h, ∀ e' ∈ cyc h, (cq p σ e.1 e.2).ev x ≤ (cq p σ e'.1 e'.2).ev x := by
    clear loc pos hn hne
    generalize cyc h = L at hcn
    induction L with
    | nil => exact (hcn rfl).elim
    | cons a l ih =>
      by_cases hl : l = []
      · subst hl; exact ⟨a, by simp, by simp⟩
      · obtain ⟨e, he, hm⟩ := ih hl
        rcases le_total ((cq p σ a.1 a.2).ev x) ((cq p σ e.1 e.2).ev x) with hle | hle
        · refine ⟨a, by simp, ?_⟩
          intro e' he'
          rcases List.mem_cons.mp he' with rfl | he'
          · exact le_refl _
          · exact hle.trans (hm e' he')
        · refine ⟨e, by simp [he], ?_⟩
          intro e' he'
          rcases List.mem_cons.mp he' with rfl | he'
          · exact hle
          · exact hm e' he'
  by_contra hno
  push Not at hno
  obtain ⟨a, b⟩ := e
  simp only at hmin
  let Min : P2 → P2 → Prop := fun u v => ∀ e' ∈ cyc h, (cq p σ u v).ev x ≤ (cq p σ e'.1 e'.2).ev x
  have none : ∀ u v, (u, v) ∈ cyc h → Min u v → 0 ≤ ori p u x → 0 ≤ ori p x v → False := by
    intro u v huv hm h1 h2
    obtain ⟨u', v', h3, h4⟩ := hno u v huv h1 h2
    exact absurd (hm _ h3) (not_le.mpr h4)
  have swap : ∀ u, ori p x u = - ori p u x := fun u => by rw [ori_swap23]
  rcases lt_or_ge 0 (ori p b x) with hb | hb
  · -- forward: all spokes have x on their left
    have fw := cyc_propagate (P := fun u => 0 < ori p u x ∧ ∃ v, (u, v) ∈ cyc h ∧ Min u v) (l := h)
      (by
        rintro u v huv ⟨hu, v', hv', hm⟩
        obtain rfl := cyc_succ_unique hn huv hv'
        have hvx : 0 < ori p v x := by
          by_contra hle
          push Not at hle
          exact none u v huv hm hu.le (by rw [swap]; linarith)
        obtain ⟨w, hw⟩ := cyc_succ (cyc_mem huv).2
        refine ⟨hvx, w, hw, ?_⟩
        intro e' he'
        refine le_trans ?_ (hm e' he')
        have hl := loc u v w huv hw
        have hs := cone_step (σ := σ) (pos u v huv) (pos v w hw) x
        have h1 := mul_nonneg hvx.le hl
        have hp := pos v w hw
        by_contra hlt
        push Not at hlt
        have := mul_pos hp (sub_pos.mpr hlt)
        linarith) (x := b) (cyc_mem he).2
      ⟨hb, by
        obtain ⟨w, hw⟩ := cyc_succ (cyc_mem he).2
        refine ⟨w, hw, ?_⟩
        intro e' he'
        refine le_trans ?_ (hmin e' he')
        have hl := loc a b w he hw
        have hs := cone_step (σ := σ) (pos a b he) (pos b w hw) x
        have h1 := mul_nonneg hb.le hl
        have hp := pos b w hw
        by_contra hlt
        push Not at hlt
        have := mul_pos hp (sub_pos.mpr hlt)
        linarith⟩
    exact not_all_pos hne pos x (fun u hu => (fw u hu).1)
  · have ha : ori p a x < 0 := by
      by_contra hge
      push Not at hge
      exact none a b he hmin hge (by rw [swap]; linarith)
    have step : ∀ t u v, (t, u) ∈ cyc h → (u, v) ∈ cyc h → Min u v → ori p u x < 0 → Min t u := by
      intro t u v htu huv hm hu e' he'
      refine le_trans ?_ (hm e' he')
      have hl := loc t u v htu huv
      have hs := cone_step (σ := σ) (pos t u htu) (pos u v huv) x
      have h1 := mul_nonneg (neg_nonneg.mpr hu.le) hl
      have hp := pos u v huv
      by_contra hlt
      push Not at hlt
      have := mul_pos hp (sub_pos.mpr hlt)
      linarith
    have bw := cyc_propagate' (P := fun v => ori p v x < 0 ∧ ∃ u, (u, v) ∈ cyc h ∧ Min u v) (l := h)
      (by
        rintro u v huv ⟨hv, u', hu', hm⟩
        obtain rfl := cyc_pred_unique hn huv hu'
        have hux : ori p u x < 0 := by
          by_contra hge
          push Not at hge
          exact none u v huv hm hge (by rw [swap]; linarith)
        obtain ⟨t, ht⟩ := cyc_pred (cyc_mem huv).1
        exact ⟨hux, t, ht, step t u v ht huv hm hux⟩) (x := a) (cyc_mem he).1
      ⟨ha, by
        obtain ⟨t, ht⟩ := cyc_pred (cyc_mem he).1
        exact ⟨t, ht, step t a b ht he hmin ha⟩⟩
    exact not_all_neg hne pos x (fun u hu => (bw u hu).1)

/-- Score of an ear (`calculateScore` for a convex ear). -/
def score (p a b c : P2) : ℚ := - (pwT a b c).ev p

theorem cq_score {p a b c : P2} (hc : 0 < ori a b c) (h1 : ori p a b ≠ 0) (x : P2) :
    (cq p (score p a b c) a b).ev x = (pwT a b c).ev x :=
  cq_unique h1 (pwT_a _ _ _) (pwT_b _ _ _ hc.ne') (by unfold score; ring) x

theorem cq_score' {p a b c : P2} (hc : 0 < ori a b c) (h1 : ori p b c ≠ 0) (x : P2) :
    (cq p (score p a b c) b c).ev x = (pwT a b c).ev x :=
  cq_unique h1 (pwT_b _ _ _ hc.ne') (pwT_c _ _ _ hc.ne') (by unfold score; ring) x

theorem cq_score'' {p a b c : P2} (hc : 0 < ori a b c) (h1 : ori p a c ≠ 0) (x : P2) :
    (cq p (score p a b c) a c).ev x = (pwT a b c).ev x :=
  cq_unique h1 (pwT_a _ _ _) (pwT_c _ _ _ hc.ne') (by unfold score; ring) x

/-- Convexity at the spoke `v` is `σ ≤ score`. -/
theorem cq_next {p u v w : P2} (σ : ℚ) (h : 0 < ori p u v) (hc : 0 < ori u v w) :
    ori p u v * (cq p σ u v).ev w = ori u v w * (score p u v w - σ) := by
  have hd := Pw.diff_edge (cq p σ u v) (pwT u v w) u v w p (cq_u σ h.ne') (cq_v σ h.ne')
    (pwT_a _ _ _) (pwT_b _ _ _ hc.ne')
  rw [cq_p σ h.ne', pwT_c _ _ _ hc.ne', ori_rot] at hd
  unfold score
  linarith

theorem cq_next_nonneg {p u v w : P2} {σ : ℚ} (h : 0 < ori p u v) (hc : 0 < ori u v w) :
    0 ≤ (cq p σ u v).ev w ↔ σ ≤ score p u v w := by
  have := cq_next σ h hc
  constructor
  · intro h0
    have h1 := mul_nonneg h.le h0
    rw [this] at h1
    have := nonneg_of_mul_nonneg_right h1 hc
    linarith
  · intro h0
    have h1 := mul_nonneg hc.le (sub_nonneg.mpr h0)
    rw [← this] at h1
    exact nonneg_of_mul_nonneg_right h1 h

/-- Raising the level up to the least score keeps the support property. -/
theorem Star.raise {W : P2 → Prop} {p : P2} {σ σ' : ℚ} {h : List P2} (S : Star W p σ h)
    (hn : h.Nodup) (hW : ∀ x ∈ h, W x) (hs : σ ≤ σ')
    (hmin : ∀ u v w, (u, v) ∈ cyc h → (v, w) ∈ cyc h → 0 < ori u v w → σ' ≤ score p u v w) :
    Star W p σ' h := by
  refine ⟨S.ne, S.pos, S.only, S.beyond, ?_⟩
  have loc : ∀ u v w, (u, v) ∈ cyc h → (v, w) ∈ cyc h → 0 ≤ (cq p σ' u v).ev w := by
    intro u v w huv hvw
    rcases lt_or_ge 0 (ori u v w) with hc | hc
    · exact (cq_next_nonneg (S.pos u v huv) hc).mpr (hmin u v w huv hvw hc)
    · exact (S.supp u v huv w (hW w (cyc_mem hvw).2)).trans (cq_mono (S.pos u v huv) hs hc)
  intro u v huv x hx
  obtain ⟨a, b, hab, h1, h2, h3⟩ := exists_min_cone hn S.ne S.pos loc x
  refine le_trans ?_ (h3 u v huv)
  exact (S.supp a b hab x hx).trans (cq_mono (S.pos a b hab) hs (S.beyond a b hab x hx h1 h2))

theorem Star.perm {W : P2 → Prop} {p : P2} {σ : ℚ} {h h' : List P2} (S : Star W p σ h)
    (hr : h ~r h') : Star W p σ h' := by
  have hp := cyc_isRotated hr
  have hm := hr.perm
  refine ⟨?_, ?_, ?_, ?_, ?_⟩
  · rintro rfl
    exact S.ne (List.perm_nil.mp hm)
  · intro u v huv; exact S.pos u v (hp.mem_iff.mpr huv)
  · intro u v huv x hx; exact S.only u v (hp.mem_iff.mpr huv) x (hm.mem_iff.mpr hx)
  · intro u v huv; exact S.beyond u v (hp.mem_iff.mpr huv)
  · intro u v huv; exact S.supp u v (hp.mem_iff.mpr huv)

/-- Splitting a cone. -/
theorem cone_split {p a c x : P2} (b : P2) (h1 : 0 ≤ ori p a x) (h2 : 0 ≤ ori p x c) :
    (0 ≤ ori p a x ∧ 0 ≤ ori p x b) ∨ (0 ≤ ori p b x ∧ 0 ≤ ori p x c) := by
  rcases le_or_gt 0 (ori p x b) with h | h
  · exact Or.inl ⟨h1, h⟩
  · right
    rw [ori_swap23] at h
    exact ⟨by linarith, h2⟩

/-- A point beyond the chain `a b c` in the cone of `a c` is beyond `a c`. -/
theorem beyond_ear {p a b c x : P2} (hab : 0 < ori p a b) (hbc : 0 < ori p b c)
    (hac : 0 < ori p a c) (hc : 0 < ori a b c) (h1 : 0 ≤ ori p a x) (h2 : 0 ≤ ori p x c)
    (k : (0 ≤ ori p x b ∧ ori a b x ≤ 0) ∨ (0 ≤ ori p b x ∧ ori b c x ≤ 0)) : ori a c x ≤ 0 := by
  have e0 := ori_expand p a b c
  have e1 := ori_expand p a c x
  have sx : ori p c x = - ori p x c := ori_swap23 _ _ _
  have sb : ori p b x = - ori p x b := ori_swap23 _ _ _
  have pl := plucker p a b x c
  have sxc : ori p x c = - ori p c x := ori_swap23 _ _ _
  rcases k with ⟨k1, k2⟩ | ⟨k1, k2⟩
  · have e2 := ori_expand p a b x
    -- [ab] * ([xc] + [ax] - [ac]) ≥ 0
    have h3 : 0 ≤ ori p a b * (ori p x c + ori p a x - ori p a c) := by
      have j1 : 0 ≤ ori p a x * ori a b c := mul_nonneg h1 hc.le
      have j2 : 0 ≤ ori p a c * (ori p x b + ori p a x - ori p a b) := mul_nonneg hac.le (by linarith)
      rw [e0] at j1
      rw [sb] at pl
      linarith
    have := nonneg_of_mul_nonneg_right h3 hab
    linarith
  · have e2 := ori_expand p b c x
    have h3 : 0 ≤ ori p b c * (ori p x c + ori p a x - ori p a c) := by
      have j1 : 0 ≤ ori p x c * ori a b c := mul_nonneg h2 hc.le
      have j2 : 0 ≤ ori p a c * (ori p x c + ori p b x - ori p b c) := mul_nonneg hac.le (by linarith)
      rw [e0] at j1
      linarith
    have := nonneg_of_mul_nonneg_right h3 hbc
    linarith

/-- Ordered points on a circle around `p` form a counterclockwise triangle. -/
theorem circ_ori {p x y z : P2} {Q : Pw} (hx : Q.ev x = 0) (hy : Q.ev y = 0) (hz : Q.ev z = 0)
    (hp : Q.ev p < 0) (h1 : 0 < ori p x y) (h2 : 0 < ori p y z) (h3 : 0 ≤ ori p x z) :
    0 < ori x y z := by
  rcases h3.eq_or_lt with h3 | h3
  · rw [ori_expand p, ← h3]; linarith
  · by_contra hn
    push Not at hn
    have hc := Pw.conv Q p x z y
    rw [hx, hy, hz] at hc
    have g1 : ori x z y = - ori x y z := ori_swap23 _ _ _
    have g2 : ori z p y = ori p y z := by unfold ori; ring
    rw [g1, g2] at hc
    have hxz : x ≠ z := by rintro rfl; simp at h3
    have d2 : 0 < (x.x - z.x) ^ 2 + (x.y - z.y) ^ 2 := by
      rcases eq_or_ne x.x z.x with hxx | hxx
      · have hyy : x.y - z.y ≠ 0 := fun h0 => hxz (by ext <;> linarith)
        have := sq_pos_of_ne_zero hyy
        have := sq_nonneg (x.x - z.x)
        linarith
      · have := sq_pos_of_ne_zero (sub_ne_zero.mpr hxx)
        have := sq_nonneg (x.y - z.y)
        linarith
    have d1 : 0 ≤ (p.x - x.x) ^ 2 + (p.y - x.y) ^ 2 := by positivity
    have d3 : 0 ≤ (z.x - p.x) ^ 2 + (z.y - p.y) ^ 2 := by positivity
    have hn' : 0 ≤ - ori x y z := by linarith
    have t1 := mul_nonneg (mul_nonneg hn' h2.le) d1
    have t2 := mul_pos (mul_pos h2 h1) d2
    have t3 := mul_nonneg (mul_nonneg h1.le hn') d3
    have t4 := mul_nonneg (mul_nonneg h3.le hn') (neg_nonneg.mpr hp.le)
    linarith

theorem Circ.rot {W : P2 → Prop} {a : P2} {l : List P2} (C : Circ W (a :: l)) : Circ W (l ++ [a]) := by
  obtain ⟨⟨Q, h1, h2⟩, h3⟩ := C
  refine ⟨⟨Q, fun x hx => h1 x ?_, h2⟩, ?_⟩
  · simp only [List.mem_append, List.mem_cons, List.not_mem_nil, or_false] at *
    tauto
  · intro x y z hs
    rw [List.sublist_append_iff] at hs
    obtain ⟨l1, l2, he, hl1, hl2⟩ := hs
    rcases List.sublist_cons_iff.mp hl2 with h | ⟨r, rfl, h⟩
    · rw [List.sublist_nil] at h
      subst h
      rw [List.append_nil] at he
      subst he
      exact h3 x y z (hl1.trans (List.sublist_cons_self _ _))
    · rw [List.sublist_nil] at h
      subst h
      have : l1 = [x, y] ∧ a = z := by
        have e : [x, y] ++ [z] = l1 ++ [a] := he
        obtain ⟨e1, e2⟩ := List.append_inj' e rfl
        simp at e2
        exact ⟨e1.symm, e2.symm⟩
      obtain ⟨rfl, rfl⟩ := this
      rw [← ori_rot']
      exact h3 a x y (hl1.cons_cons a)

theorem Circ.perm {W : P2 → Prop} {h h' : List P2} (C : Circ W h) (hr : h ~r h') : Circ W h' := by
  obtain ⟨n, rfl⟩ := hr
  induction n generalizing h with
  | zero => simpa using C
  | succ n ih =>
    cases h with
    | nil => simpa using C
    | cons a l =>
      rw [List.rotate_cons_succ]
      exact ih C.rot

theorem Circ.clip {W : P2 → Prop} {a b c : P2} {r : List P2} (C : Circ W (a :: b :: c :: r)) :
    0 < ori a b c ∧ (∀ x, W x → 0 ≤ (pwT a b c).ev x) ∧ Circ W (a :: c :: r) := by
  obtain ⟨⟨Q, h1, h2⟩, h3⟩ := C
  have ho := h3 a b c (by simp)
  refine ⟨ho, fun x hx => ?_, ⟨⟨Q, fun x hx => h1 x ?_, h2⟩, fun x y z hs => h3 x y z ?_⟩⟩
  · rw [Pw.unique (pwT a b c) Q a b c ho.ne' (by rw [pwT_a, h1 a (by simp)])
      (by rw [pwT_b _ _ _ ho.ne', h1 b (by simp)]) (by rw [pwT_c _ _ _ ho.ne', h1 c (by simp)])]
    exact h2 x hx
  · simp only [List.mem_cons] at *
    tauto
  · exact hs.trans ((List.sublist_cons_self b _).cons_cons a)

/-- Cutting the ear of least score. -/
theorem Star.clip {W : P2 → Prop} {p : P2} {σ : ℚ} {a b c : P2} {r : List P2}
    (S : Star W p σ (a :: b :: c :: r)) (hn : (a :: b :: c :: r).Nodup)
    (hW : ∀ x ∈ a :: b :: c :: r, W x) (hc : 0 < ori a b c)
    (hmin : ∀ u v w, (u, v) ∈ cyc (a :: b :: c :: r) → (v, w) ∈ cyc (a :: b :: c :: r) →
      0 < ori u v w → score p a b c ≤ score p u v w) (hr : r ≠ []) :
    (∀ x, W x → 0 ≤ (pwT a b c).ev x) ∧
    (Star W p (score p a b c) (a :: c :: r) ∨ Circ W (a :: c :: r)) := by
  have eab : (a, b) ∈ cyc (a :: b :: c :: r) := by simp [cyc, path]
  have ebc : (b, c) ∈ cyc (a :: b :: c :: r) := by simp [cyc, path]
  have hab := S.pos a b eab
  have hbc := S.pos b c ebc
  have hσ : σ ≤ score p a b c := (cq_next_nonneg hab hc).mp (S.supp a b eab c (hW c (by simp)))
  have S' := S.raise hn hW hσ hmin
  have hD : ∀ x, W x → 0 ≤ (pwT a b c).ev x := fun x hx => by
    rw [← cq_score hc hab.ne']; exact S'.supp a b eab x hx
  refine ⟨hD, ?_⟩
  have nb : b ∉ a :: c :: r := by
    simp only [List.nodup_cons, List.mem_cons, not_or] at hn ⊢
    exact ⟨fun h => hn.1.1 h.symm, hn.2.1.1, hn.2.1.2⟩
  rcases lt_or_ge 0 (ori p a c) with hac | hac
  · left
    have old : ∀ u v, (u, v) ∈ cyc (a :: c :: r) → (u, v) = (a, c) ∨ (u, v) ∈ cyc (a :: b :: c :: r) := by
      intro u v huv
      simp only [cyc, path, List.cons_append, List.mem_cons] at huv ⊢
      tauto
    have sub : ∀ x ∈ a :: c :: r, x ∈ a :: b :: c :: r := by
      intro x hx; simp only [List.mem_cons] at *; tauto
    refine ⟨by simp, ?_, ?_, ?_, ?_⟩
    · intro u v huv
      rcases old u v huv with h | h
      · simp only [Prod.mk.injEq] at h; obtain ⟨rfl, rfl⟩ := h; exact hac
      · exact S'.pos u v h
    · intro u v huv x hx h1 h2
      rcases old u v huv with h | h
      · simp only [Prod.mk.injEq] at h; obtain ⟨rfl, rfl⟩ := h
        have hxb : x ≠ b := fun h => nb (h ▸ hx)
        rcases cone_split b h1 h2 with ⟨k1, k2⟩ | ⟨k1, k2⟩
        · rcases S'.only u b eab x (sub x hx) k1 k2 with h | h
          · exact Or.inl h
          · exact (hxb h).elim
        · rcases S'.only b v ebc x (sub x hx) k1 k2 with h | h
          · exact (hxb h).elim
          · exact Or.inr h
      · exact S'.only u v h x (sub x hx) h1 h2
    · intro u v huv x hx h1 h2
      rcases old u v huv with h | h
      · simp only [Prod.mk.injEq] at h; obtain ⟨rfl, rfl⟩ := h
        refine beyond_ear hab hbc hac hc h1 h2 ?_
        rcases cone_split b h1 h2 with ⟨k1, k2⟩ | ⟨k1, k2⟩
        · exact Or.inl ⟨k2, S'.beyond u b eab x hx k1 k2⟩
        · exact Or.inr ⟨k1, S'.beyond b v ebc x hx k1 k2⟩
      · exact S'.beyond u v h x hx h1 h2
    · intro u v huv x hx
      rcases old u v huv with h | h
      · simp only [Prod.mk.injEq] at h; obtain ⟨rfl, rfl⟩ := h
        rw [cq_score'' hc hac.ne']
        exact hD x hx
      · exact S'.supp u v h x hx
  · right
    obtain ⟨d, r, rfl⟩ := List.exists_cons_of_ne_nil hr
    have hca : 0 ≤ ori p c a := by rw [ori_swap23]; linarith
    have ecd : (c, d) ∈ cyc (a :: b :: c :: d :: r) := by simp [cyc, path]
    have hcd := S'.pos c d ecd
    set σ' := score p a b c with hσ'
    have hQ := S'.supp c d ecd
    have hQc : (cq p σ' c d).ev c = 0 := cq_u σ' hcd.ne'
    have hQd : (cq p σ' c d).ev d = 0 := cq_v σ' hcd.ne'
    have hQp : (cq p σ' c d).ev p = -σ' := cq_p σ' hcd.ne'
    generalize cq p σ' c d = Q at *
    -- p is strictly inside the circle of the ear
    have hσpos : 0 < σ' := by
      have hcl := T3.pow_closed ⟨a, b, c⟩ hc p (by change 0 ≤ ori a b p; rw [ori_rot p a b]; exact hab.le)
        (by change 0 ≤ ori b c p; rw [ori_rot p b c]; exact hbc.le)
        (by change 0 ≤ ori c a p; rw [ori_rot p c a]; exact hca)
      have e : T3.pow ⟨a, b, c⟩ p = -σ' := by rw [hσ']; unfold score T3.pow; simp
      rw [e] at hcl
      rcases (by linarith [hcl.1] : (0:ℚ) ≤ σ').eq_or_lt with h | h
      · exfalso
        rcases hcl.2 (by rw [← h]; simp) with k | k | k
        · simp only at k; rw [k] at hab; simp at hab
        · simp only at k; rw [k] at hab; simp at hab
        · simp only at k; rw [k] at hbc; simp at hbc
      · exact h
    have hQa : Q.ev a = 0 := by
      have hb := Pw.bary Q (pwT a b c) a b c p
      rw [pwT_a, pwT_b _ _ _ hc.ne', pwT_c _ _ _ hc.ne', hQp, hQc] at hb
      have e : (pwT a b c).ev p = -σ' := by rw [hσ']; unfold score; simp
      rw [e, ori_rot p b c, ori_rot p c a, ori_rot p a b] at hb
      have q1 := hQ a (hW a (by simp))
      have q2 := hQ b (hW b (by simp))
      have q3 := mul_nonneg hca q2
      have q4 : ori p b c * Q.ev a = 0 := by
        have := mul_nonneg hbc.le q1
        linarith
      exact (mul_eq_zero.mp q4).resolve_left hbc.ne'
    have left : ∀ u ∈ d :: r, 0 < ori p u a := by
      intro u hu
      by_contra hle
      push Not at hle
      have hau : 0 ≤ ori p a u := by rw [ori_swap23]; linarith
      have humem : u ∈ a :: b :: c :: d :: r := by
        simp only [List.mem_cons] at hu ⊢; tauto
      have hne : u ≠ a ∧ u ≠ b ∧ u ≠ c := by
        simp only [List.nodup_cons, List.mem_cons, not_or] at hn
        refine ⟨?_, ?_, ?_⟩ <;> rintro rfl <;> simp only [List.mem_cons] at hu <;> tauto
      rcases le_or_gt 0 (ori p u b) with k | k
      · rcases S'.only a b eab u humem hau k with h | h
        · exact hne.1 h
        · exact hne.2.1 h
      · have hbu : 0 < ori p b u := by rw [ori_swap23]; linarith
        have huc : 0 ≤ ori p u c := by
          have pl := plucker p a b u c
          have t1 := mul_nonneg hau hbc.le
          have t2 := mul_nonneg (neg_nonneg.mpr hac) hbu.le
          have t3 : 0 ≤ ori p a b * ori p u c := by linarith
          exact nonneg_of_mul_nonneg_right t3 hab
        rcases S'.only b c ebc u humem hbu.le huc with h | h
        · exact hne.2.1 h
        · exact hne.2.2 h
    have sub : ∀ u v, (u, v) ∈ path d (r ++ [a]) → (u, v) ∈ cyc (a :: b :: c :: d :: r) := by
      intro u v huv; simp only [cyc, path, List.cons_append, List.mem_cons]; tauto
    -- all remaining hull points are on the circle
    have onQ := path_propagate (P := fun u => Q.ev u = 0) (x := d) (l := r ++ [a])
      (by
        intro u v huv hu
        have hm := sub u v huv
        have hud : u ∈ d :: r := path_fst_mem huv
        have hua := left u hud
        have huv' := S'.pos u v hm
        have hb := Pw.bary (cq p σ' u v) Q p u v a
        rw [cq_p σ' huv'.ne', cq_u σ' huv'.ne', cq_v σ' huv'.ne', hQp, hu, hQa] at hb
        have q1 := S'.supp u v hm a (hW a (by simp))
        have q2 := hQ v (hW v (cyc_mem hm).2)
        have q3 := mul_nonneg huv'.le q1
        have q4 : ori p u a * Q.ev v = 0 := by
          have := mul_nonneg hua.le q2
          linarith
        exact (mul_eq_zero.mp q4).resolve_left hua.ne') hQd
    have allQ : ∀ x ∈ a :: c :: d :: r, Q.ev x = 0 := by
      intro x hx
      simp only [List.mem_cons] at hx
      rcases hx with rfl | rfl | rfl | hx
      · exact hQa
      · exact hQc
      · exact hQd
      · exact onQ x (by simp [hx])
    -- angular order
    have pw : (c :: d :: r).Pairwise (fun u v => 0 < ori p u v) := by
      refine path_pairwise (S0 := fun u => 0 ≤ ori p u a) (S := fun u => 0 < ori p u a)
        (fun _ h => h.le) ?_ ?_ hca left
      · intro x y z hx hy hz hxy hyz
        have pl := plucker p x y z a
        have t1 := mul_pos hxy hz
        have t2 := mul_nonneg hx hyz.le
        have t3 : 0 < ori p x z * ori p y a := by linarith
        exact (pos_iff_pos_of_mul_pos t3).mpr hy
      · intro u v huv
        apply S'.pos
        have : path c (d :: r ++ [a]) = path c (d :: r) ++ path ((d :: r).getLast (by simp)) [a] := by
          obtain ⟨m, z, hmz⟩ : ∃ m z, d :: r = m ++ [z] :=
            ⟨_, _, (List.dropLast_append_getLast (by simp : d :: r ≠ [])).symm⟩
          simp only [hmz, List.append_assoc, List.getLast_append_singleton]
          rw [List.singleton_append, path_append]
        have h2 : (u, v) ∈ path c (d :: r ++ [a]) := by
          rw [this]; exact List.mem_append_left _ huv
        change (u, v) ∈ (a, b) :: (b, c) :: path c (d :: r ++ [a])
        exact List.mem_cons_of_mem _ (List.mem_cons_of_mem _ h2)
    suffices Circ W ((c :: d :: r) ++ [a]) from this.perm (by
      have := List.isRotated_append (l := c :: d :: r) (l' := [a])
      simpa using this)
    refine ⟨⟨Q, fun x hx => allQ x ?_, hQ⟩, ?_⟩
    · simp only [List.mem_append, List.mem_cons, List.not_mem_nil, or_false] at *
      tauto
    · intro x y z hs
      have mem : ∀ w ∈ [x, y, z], Q.ev w = 0 := fun w hw => allQ w (by
        have := hs.subset hw
        simp only [List.mem_append, List.mem_cons, List.not_mem_nil, or_false] at this ⊢
        tauto)
      have q0 : Q.ev p < 0 := by rw [hQp]; linarith
      rw [List.sublist_append_iff] at hs
      obtain ⟨l1, l2, he, hl1, hl2⟩ := hs
      rcases List.sublist_cons_iff.mp hl2 with h | ⟨r', rfl, h⟩
      · rw [List.sublist_nil] at h
        subst h
        rw [List.append_nil] at he
        subst he
        have := pw.sublist hl1
        simp only [List.pairwise_cons, List.mem_cons, List.not_mem_nil, or_false, forall_eq_or_imp,
          forall_eq] at this
        exact circ_ori (mem x (by simp)) (mem y (by simp)) (mem z (by simp)) q0 this.1.1 this.2.1
          this.1.2.le
      · rw [List.sublist_nil] at h
        subst h
        have : l1 = [x, y] ∧ a = z := by
          have e : [x, y] ++ [z] = l1 ++ [a] := he
          obtain ⟨e1, e2⟩ := List.append_inj' e rfl
          simp at e2
          exact ⟨e1.symm, e2.symm⟩
        obtain ⟨rfl, rfl⟩ := this
        have hxy := pw.sublist hl1
        simp only [List.pairwise_cons, List.mem_cons, List.not_mem_nil, or_false, forall_eq] at hxy
        have hy : y ∈ d :: r := by
          rcases List.sublist_cons_iff.mp hl1 with h | ⟨r', h, h'⟩
          · exact h.subset (by simp)
          · simp only [List.cons.injEq] at h
            exact h'.subset (by rw [← h.2]; simp)
        have hxa : 0 ≤ ori p x a := by
          have : x ∈ c :: d :: r := hl1.subset (by simp)
          rcases List.mem_cons.mp this with rfl | h
          · exact hca
          · exact (left x h).le
        exact circ_ori (mem x (by simp)) (mem y (by simp)) (mem a (by simp)) q0 hxy.1
          (left y hy) hxa

/-- A star-shaped hull has a convex ear: the hull point farthest from `p`. -/
theorem Star.exists_ear {W : P2 → Prop} {p : P2} {σ : ℚ} {h : List P2} (S : Star W p σ h) :
    ∃ u v w, (u, v) ∈ cyc h ∧ (v, w) ∈ cyc h ∧ 0 < ori u v w := by
  let n : P2 → ℚ := fun x => (x.x - p.x) ^ 2 + (x.y - p.y) ^ 2
  obtain ⟨b, hb, hmax⟩ : ∃ b ∈ h, ∀ x ∈ h, n x ≤ n b := by
    have hne := S.ne
    clear S
    induction h with
    | nil => exact (hne rfl).elim
    | cons a l ih =>
      by_cases hl : l = []
      · subst hl; exact ⟨a, by simp, by simp⟩
      · obtain ⟨b, hb, hm⟩ := ih hl
        rcases le_total (n b) (n a) with hle | hle
        · refine ⟨a, by simp, fun x hx => ?_⟩
          rcases List.mem_cons.mp hx with rfl | hx
          · exact le_refl _
          · exact (hm x hx).trans hle
        · refine ⟨b, by simp [hb], fun x hx => ?_⟩
          rcases List.mem_cons.mp hx with rfl | hx
          · exact hle
          · exact hm x hx
  obtain ⟨a, ha⟩ := cyc_pred hb
  obtain ⟨c, hc⟩ := cyc_succ hb
  refine ⟨a, b, c, ha, hc, ?_⟩
  have h1 := S.pos a b ha
  have h2 := S.pos b c hc
  have hna := hmax a (cyc_mem ha).1
  have hnc := hmax c (cyc_mem hc).2
  have key : ∀ z, z ≠ b → n z ≤ n b →
      0 < n b - ((b.x - p.x) * (z.x - p.x) + (b.y - p.y) * (z.y - p.y)) := by
    intro z hz hle
    have d2 : 0 < (b.x - z.x) ^ 2 + (b.y - z.y) ^ 2 := by
      rcases eq_or_ne b.x z.x with hxx | hxx
      · have hyy : b.y - z.y ≠ 0 := fun h0 => hz (by ext <;> linarith)
        have := sq_pos_of_ne_zero hyy
        have := sq_nonneg (b.x - z.x)
        linarith
      · have := sq_pos_of_ne_zero (sub_ne_zero.mpr hxx)
        have := sq_nonneg (b.y - z.y)
        linarith
    have e : 2 * (n b - ((b.x - p.x) * (z.x - p.x) + (b.y - p.y) * (z.y - p.y))) =
        (n b - n z) + ((b.x - z.x) ^ 2 + (b.y - z.y) ^ 2) := by simp only [n]; ring
    linarith
  have ka := key a (by rintro rfl; simp at h1) hna
  have kc := key c (by rintro rfl; simp at h2) hnc
  have id : n b * ori a b c =
      ori p a b * (n b - ((b.x - p.x) * (c.x - p.x) + (b.y - p.y) * (c.y - p.y))) +
      ori p b c * (n b - ((b.x - p.x) * (a.x - p.x) + (b.y - p.y) * (a.y - p.y))) := by
    simp only [n]; unfold ori; ring
  have hpos : 0 < n b * ori a b c := by
    rw [id]
    have := mul_pos h1 kc
    have := mul_pos h2 ka
    linarith
  exact pos_of_mul_pos_right hpos (by simp only [n]; positivity)

/-- A star-shaped hull has at least three points. -/
theorem Star.three {W : P2 → Prop} {p : P2} {σ : ℚ} {h : List P2} (S : Star W p σ h) :
    3 ≤ h.length := by
  match h, S with
  | [], S => exact (S.ne rfl).elim
  | [a], S => have := S.pos a a (by simp [cyc, path]); simp at this
  | [a, b], S =>
    have h1 := S.pos a b (by simp [cyc, path])
    have h2 := S.pos b a (by simp [cyc, path])
    rw [ori_swap23] at h2
    linarith
  | a :: b :: c :: l, _ => simp

theorem score_rot {p a b c : P2} (h : 0 < ori a b c) : score p b c a = score p a b c := by
  unfold score
  have := T3.rot_pow ⟨a, b, c⟩ h.ne' p
  unfold T3.pow T3.rot at this
  simp only at this
  rw [this]

/-- The last triangle. -/
theorem Star.last {W : P2 → Prop} {p : P2} {σ : ℚ} {a b c : P2} (S : Star W p σ [a, b, c])
    (hn : [a, b, c].Nodup) (hW : ∀ x ∈ [a, b, c], W x) :
    0 < ori a b c ∧ ∀ x, W x → 0 ≤ (pwT a b c).ev x := by
  have eab : (a, b) ∈ cyc [a, b, c] := by simp [cyc, path]
  have ebc : (b, c) ∈ cyc [a, b, c] := by simp [cyc, path]
  have eca : (c, a) ∈ cyc [a, b, c] := by simp [cyc, path]
  have h1 := S.pos a b eab
  have h2 := S.pos b c ebc
  have h3 := S.pos c a eca
  have hc : 0 < ori a b c := by
    have e := ori_expand p a b c
    rw [ori_swap23] at h3
    linarith
  refine ⟨hc, fun x hx => ?_⟩
  have hσ : σ ≤ score p a b c := (cq_next_nonneg h1 hc).mp (S.supp a b eab c (hW c (by simp)))
  have S' := S.raise hn hW hσ (by
    intro u v w huv hvw _
    simp only [cyc, path, List.cons_append, List.nil_append, List.mem_cons, Prod.mk.injEq,
      List.not_mem_nil, or_false] at huv hvw
    simp only [List.nodup_cons, List.mem_cons, List.not_mem_nil, or_false, not_or] at hn
    have hc1 : 0 < ori b c a := by rw [ori_rot]; exact hc
    rcases huv with ⟨rfl, rfl⟩ | ⟨rfl, rfl⟩ | ⟨rfl, rfl⟩ <;>
      rcases hvw with ⟨k1, k2⟩ | ⟨k1, k2⟩ | ⟨k1, k2⟩
    all_goals first
      | (exfalso; subst k1; tauto)
      | (exfalso; tauto)
      | skip
    · subst k2; exact le_refl _
    · subst k2; rw [score_rot hc]
    · subst k2; rw [score_rot hc1, score_rot hc])
  rw [← cq_score hc h1.ne']
  exact S'.supp a b eab x hx

/-- Sum over the cyclic hull. -/
def csum (f : P2 → P2 → ℤ) (h : List P2) : ℤ := ((cyc h).map (fun e => f e.1 e.2)).sum

theorem csum_rot (f) {h h' : List P2} (hr : h ~r h') : csum f h = csum f h' :=
  ((cyc_isRotated hr).map _).sum_eq

/-- A triangulation with a hole bounded by `h`, during the removal of `p`. -/
structure Hole (s : T3) (W : P2 → Prop) (p : P2) (A : List T3) (h : List P2) : Prop where
  ccw : Ccw A
  verts : ∀ t ∈ A, ∀ x, t.Has x → W x
  del : ∀ t ∈ A, ∀ x, W x → 0 ≤ t.pow x
  chain : ∀ f, Anti f → tsum f A + csum f h = esum f s
  nodup : h.Nodup
  mem : ∀ x ∈ h, W x
  shape : (∃ σ, Star W p σ h) ∨ (Circ W h ∧ 3 ≤ h.length)

theorem Hole.rot {s W p A h h'} (H : Hole s W p A h) (hr : h ~r h') : Hole s W p A h' := by
  refine ⟨H.ccw, H.verts, H.del, fun f hf => ?_, hr.perm.nodup_iff.mp H.nodup,
    fun x hx => H.mem x (hr.perm.mem_iff.mpr hx), ?_⟩
  · rw [← csum_rot f hr]; exact H.chain f hf
  · rcases H.shape with ⟨σ, S⟩ | ⟨C, hl⟩
    · exact Or.inl ⟨σ, S.perm hr⟩
    · exact Or.inr ⟨C.perm hr, by rw [← hr.perm.length_eq]; exact hl⟩

theorem Hole.three {s W p A h} (H : Hole s W p A h) : 3 ≤ h.length := by
  rcases H.shape with ⟨σ, S⟩ | ⟨_, hl⟩
  · exact S.three
  · exact hl

/-- There is always a convex ear. -/
theorem Hole.exists_ear {s W p A h} (H : Hole s W p A h) :
    ∃ u v w, (u, v) ∈ cyc h ∧ (v, w) ∈ cyc h ∧ 0 < ori u v w := by
  rcases H.shape with ⟨σ, S⟩ | ⟨C, hl⟩
  · exact S.exists_ear
  · match h, C, hl with
    | a :: b :: c :: r, C, _ =>
      exact ⟨a, b, c, by simp [cyc, path], by simp [cyc, path], C.clip.1⟩

/-- The ear `a b c` is a convex ear of least score. -/
def Best (p : P2) (h : List P2) (a b c : P2) : Prop :=
  0 < ori a b c ∧ ∀ u v w, (u, v) ∈ cyc h → (v, w) ∈ cyc h → 0 < ori u v w →
    score p a b c ≤ score p u v w

theorem Hole.add_tri {s W p A h h' a b c} (H : Hole s W p A h) {t : T3} (ht : t.Rep a b c)
    (ho : 0 < ori a b c) (hD : ∀ x, W x → 0 ≤ (pwT a b c).ev x) (ha : a ∈ h) (hb : b ∈ h) (hc : c ∈ h)
    (hs : ∀ f, Anti f → csum f h = csum f h' + (f a b + f b c + f c a)) (hn : h'.Nodup)
    (hm : ∀ x ∈ h', x ∈ h) (hsh : (∃ σ, Star W p σ h') ∨ (Circ W h' ∧ 3 ≤ h'.length)) :
    Hole s W p (A ++ [t]) h' := by
  have hto : t.or ≠ 0 := by rw [ht.or_eq]; exact ho.ne'
  refine ⟨?_, ?_, ?_, ?_, hn, fun x hx => H.mem x (hm x hx), hsh⟩
  · intro u hu
    rcases List.mem_append.mp hu with hu | hu
    · exact H.ccw u hu
    · simp at hu; subst hu; rw [ht.or_eq]; exact ho
  · intro u hu x hx
    rcases List.mem_append.mp hu with hu | hu
    · exact H.verts u hu x hx
    · simp at hu; subst hu
      rcases (ht.has_iff x).mp hx with rfl | rfl | rfl
      · exact H.mem _ ha
      · exact H.mem _ hb
      · exact H.mem _ hc
  · intro u hu x hx
    rcases List.mem_append.mp hu with hu | hu
    · exact H.del u hu x hx
    · simp at hu; subst hu
      rw [ht.pow_eq hto]; exact hD x hx
  · intro f hf
    have := H.chain f hf
    rw [hs f hf] at this
    rw [tsum_append, tsum_cons, tsum_nil, ht.esum_eq]
    linarith

/-- **Ear step**: cutting the best ear preserves the hole invariant. -/
theorem Hole.step {s W p A h a b c r h'} (H : Hole s W p A h) (hr : h ~r a :: b :: c :: r)
    (hr' : h' ~r a :: c :: r) (hlen : 3 < h.length) (hbest : Best p h a b c) {t : T3}
    (ht : t.Rep a b c) : Hole s W p (A ++ [t]) h' := by
  have H1 := H.rot hr
  have hrne : r ≠ [] := by
    rintro rfl
    have := hr.perm.length_eq
    simp at this; omega
  have hp := cyc_isRotated hr
  have hn' : (a :: c :: r).Nodup :=
    H1.nodup.sublist ((List.sublist_cons_self b _).cons_cons a)
  have hl' : 3 ≤ (a :: c :: r).length := by
    have := List.length_pos_iff.mpr hrne
    simp; omega
  have hsum : ∀ f, Anti f → csum f (a :: b :: c :: r) = csum f (a :: c :: r) + (f a b + f b c + f c a) := by
    intro f hf
    have := hf c a
    unfold csum
    simp only [cyc, path, List.cons_append, List.map_cons, List.sum_cons]
    linarith
  have hmem : ∀ x ∈ a :: c :: r, x ∈ a :: b :: c :: r := by
    intro x hx; simp only [List.mem_cons] at *; tauto
  have main : Hole s W p (A ++ [t]) (a :: c :: r) := by
    rcases H1.shape with ⟨σ, S⟩ | ⟨C, _⟩
    · obtain ⟨hD, hsh⟩ := S.clip H1.nodup H1.mem hbest.1
        (fun u v w huv hvw ho => hbest.2 u v w (hp.mem_iff.mpr huv) (hp.mem_iff.mpr hvw) ho) hrne
      refine H1.add_tri ht hbest.1 hD (by simp) (by simp) (by simp) hsum hn' hmem ?_
      rcases hsh with h | h
      · exact Or.inl ⟨_, h⟩
      · exact Or.inr ⟨h, hl'⟩
    · obtain ⟨ho, hD, hC⟩ := C.clip
      exact H1.add_tri ht ho hD (by simp) (by simp) (by simp) hsum hn' hmem (Or.inr ⟨hC, hl'⟩)
  exact main.rot hr'.symm

/-- **Last triangle**: filling a triangular hole restores the invariant. -/
theorem Hole.finish {s V p A a b c} (H : Hole s (fun x => V x ∨ s.Has x) p A [a, b, c])
    (hs : 0 < s.or) (hin : ∀ x, V x → Inside s x) {t : T3} (ht : t.Rep a b c) :
    Inv s V (A ++ [t]) := by
  have hoD : 0 < ori a b c ∧ ∀ x, (V x ∨ s.Has x) → 0 ≤ (pwT a b c).ev x := by
    rcases H.shape with ⟨σ, S⟩ | ⟨C, _⟩
    · exact S.last H.nodup H.mem
    · exact ⟨C.clip.1, C.clip.2.1⟩
  obtain ⟨ho, hD⟩ := hoD
  have hto : t.or ≠ 0 := by rw [ht.or_eq]; exact ho.ne'
  refine ⟨hs, ?_, ?_, ?_, hin, ?_⟩
  · intro u hu
    rcases List.mem_append.mp hu with hu | hu
    · exact H.ccw u hu
    · simp at hu; subst hu; rw [ht.or_eq]; exact ho
  · intro f hf
    have := H.chain f hf
    rw [tsum_append, tsum_cons, tsum_nil, ht.esum_eq]
    simp only [csum, cyc, path, List.cons_append, List.nil_append, List.map_cons, List.map_nil,
      List.sum_cons, List.sum_nil] at this
    linarith
  · intro u hu x hx
    rcases List.mem_append.mp hu with hu | hu
    · exact H.verts u hu x hx
    · simp at hu; subst hu
      apply H.mem
      rcases (ht.has_iff x).mp hx with rfl | rfl | rfl <;> simp
  · intro u hu x hx
    rcases List.mem_append.mp hu with hu | hu
    · exact H.del u hu x hx
    · simp at hu; subst hu
      rw [ht.pow_eq hto]; exact hD x hx

end Verif.Tri

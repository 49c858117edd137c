import Verif.Tri.Remove

/-!
# The link of a vertex, sorted by direction, is the boundary of its star
-/

namespace Verif.Tri

/-- Directions with angle in `(90°, 270°]` seen from `p`. -/
def Lower (p u : P2) : Prop := u.x < p.x ∨ (u.x = p.x ∧ u.y < p.y)

instance (p u : P2) : Decidable (Lower p u) := by unfold Lower; infer_instance

/-- Order by counterclockwise angle, starting after the upward direction. -/
def AngLt (p u v : P2) : Prop :=
  (Lower p u ∧ ¬ Lower p v) ∨ ((Lower p u ↔ Lower p v) ∧ 0 < ori p u v)

/-- `u`, `v`, `w` are in cyclic order. -/
def CycLt (p u v w : P2) : Prop :=
  (AngLt p u v ∧ AngLt p v w) ∨ (AngLt p v w ∧ AngLt p w u) ∨ (AngLt p w u ∧ AngLt p u v)

/-- Point reflection at `p`. -/
def refl (p u : P2) : P2 := ⟨2 * p.x - u.x, 2 * p.y - u.y⟩

theorem refl_left (p u v : P2) : ori p (refl p u) v = - ori p u v := by
  unfold ori refl; simp only; ring

theorem refl_right (p u v : P2) : ori p u (refl p v) = - ori p u v := by
  unfold ori refl; simp only; ring

theorem refl_lower {p u : P2} (h : ¬ Lower p u) (hu : u ≠ p) : Lower p (refl p u) := by
  unfold Lower refl at *
  push Not at h
  obtain ⟨h1, h2⟩ := h
  simp only
  rcases h1.lt_or_eq with h | h
  · left; linarith
  · right
    refine ⟨by linarith, ?_⟩
    have := h2 h.symm
    rcases this.lt_or_eq with k | k
    · linarith
    · exact (hu (by ext <;> simp [h, k])).elim

theorem lower_trans {p a b c : P2} (ha : Lower p a) (hb : Lower p b) (hc : Lower p c)
    (h1 : 0 < ori p a b) (h2 : 0 < ori p b c) : 0 < ori p a c := by
  -- x_b * [ac] = x_a * [bc] + x_c * [ab]
  have id : (p.x - b.x) * ori p a c = (p.x - a.x) * ori p b c + (p.x - c.x) * ori p a b := by
    unfold ori; ring
  have idy : (p.y - b.y) * ori p a c = (p.y - a.y) * ori p b c + (p.y - c.y) * ori p a b := by
    unfold ori; ring
  have xa : 0 ≤ p.x - a.x := by rcases ha with h | h <;> linarith [h]
  have xc : 0 ≤ p.x - c.x := by rcases hc with h | h <;> linarith [h]
  have xb : 0 ≤ p.x - b.x := by rcases hb with h | h <;> linarith [h]
  have t1 := mul_nonneg xa h2.le
  have t2 := mul_nonneg xc h1.le
  rcases hb with hb | ⟨hb, hb'⟩
  · have hx : 0 < p.x - b.x := by linarith
    rcases ha with ha | ⟨ha, ha'⟩
    · have := mul_pos (sub_pos.mpr ha) h2
      have h3 : 0 < (p.x - b.x) * ori p a c := by linarith
      exact pos_of_mul_pos_right h3 hx.le
    · rcases hc with hc | ⟨hc, hc'⟩
      · have := mul_pos (sub_pos.mpr hc) h1
        have h3 : 0 < (p.x - b.x) * ori p a c := by linarith
        exact pos_of_mul_pos_right h3 hx.le
      · exfalso
        have e1 : ori p a b = (p.y - a.y) * (b.x - p.x) := by unfold ori; rw [ha]; ring
        rw [e1] at h1
        have := mul_nonneg (by linarith : 0 ≤ p.y - a.y) hx.le
        linarith
  · -- b points straight down: nothing of the half-plane lies after it
    exfalso
    have e1 : ori p b c = (p.y - b.y) * (c.x - p.x) := by unfold ori; rw [hb]; ring
    rw [e1] at h2
    have := mul_nonneg (by linarith : 0 ≤ p.y - b.y) xc
    linarith

theorem upper_trans {p a b c : P2} (ha : ¬ Lower p a) (hb : ¬ Lower p b) (hc : ¬ Lower p c)
    (na : a ≠ p) (nb : b ≠ p) (nc : c ≠ p)
    (h1 : 0 < ori p a b) (h2 : 0 < ori p b c) : 0 < ori p a c := by
  have := lower_trans (refl_lower ha na) (refl_lower hb nb) (refl_lower hc nc)
    (by rw [refl_left, refl_right]; linarith) (by rw [refl_left, refl_right]; linarith)
  rw [refl_left, refl_right] at this
  linarith

theorem AngLt.asymm {p u v : P2} (h : AngLt p u v) : ¬ AngLt p v u := by
  have := ori_swap23 p u v
  rintro k
  rcases h with ⟨h1, h2⟩ | ⟨h1, h2⟩ <;> rcases k with ⟨k1, k2⟩ | ⟨k1, k2⟩
  · exact k2 h1
  · exact h2 (k1.mpr h1)
  · exact k2 (h1.mpr k1)
  · linarith

theorem AngLt.trans {p u v w : P2} (nu : u ≠ p) (nv : v ≠ p) (nw : w ≠ p) (h : AngLt p u v)
    (k : AngLt p v w) : AngLt p u w := by
  rcases h with ⟨h1, h2⟩ | ⟨h1, h2⟩ <;> rcases k with ⟨k1, k2⟩ | ⟨k1, k2⟩
  · exact (h2 k1).elim
  · exact Or.inl ⟨h1, fun h => h2 (k1.mpr h)⟩
  · exact Or.inl ⟨h1.mpr k1, k2⟩
  · refine Or.inr ⟨h1.trans k1, ?_⟩
    by_cases hl : Lower p u
    · exact lower_trans hl (h1.mp hl) (k1.mp (h1.mp hl)) h2 k2
    · have hv : ¬ Lower p v := fun h => hl (h1.mpr h)
      exact upper_trans hl hv (fun h => hv (k1.mpr h)) nu nv nw h2 k2

/-- Same direction from `p`. -/
def SameDir (p u v : P2) : Prop :=
  ori p u v = 0 ∧ 0 < (u.x - p.x) * (v.x - p.x) + (u.y - p.y) * (v.y - p.y)

theorem AngLt.total {p u v : P2} (nu : u ≠ p) (nv : v ≠ p) (hd : ¬ SameDir p u v) :
    AngLt p u v ∨ AngLt p v u := by
  have hs := ori_swap23 p u v
  by_cases hu : Lower p u <;> by_cases hv : Lower p v
  · rcases lt_trichotomy (ori p u v) 0 with h | h | h
    · exact Or.inr (Or.inr ⟨by simp only [hu, hv], by linarith⟩)
    · exfalso
      apply hd
      refine ⟨h, ?_⟩
      rcases hu with hu | ⟨hu, hu'⟩
      · rcases hv with hv | ⟨hv, hv'⟩
        · have t := mul_pos (sub_pos.mpr hu) (sub_pos.mpr hv)
          have id : (p.x - u.x) * ((p.x - v.x) * ((u.x - p.x) * (v.x - p.x) + (u.y - p.y) * (v.y - p.y))) =
              ((p.x - u.x) * (p.x - v.x)) ^ 2 + (u.y - p.y) ^ 2 * (p.x - v.x) ^ 2 -
              ori p u v * (u.y - p.y) * (v.x - p.x) * (-1) * (-1) * (-1) * (-1) +
              0 := by
            have e : (u.x - p.x) * (v.y - p.y) = (u.y - p.y) * (v.x - p.x) := by
              unfold ori at h; linarith
            rw [h]
            linear_combination (-(u.y - p.y) * (p.x - v.x)) * e
          rw [h] at id
          have p1 : 0 < ((p.x - u.x) * (p.x - v.x)) ^ 2 := by positivity
          have p2 : 0 ≤ (u.y - p.y) ^ 2 * (p.x - v.x) ^ 2 := by positivity
          have p3 : 0 < (p.x - u.x) * ((p.x - v.x) * ((u.x - p.x) * (v.x - p.x) + (u.y - p.y) * (v.y - p.y))) := by
            rw [id]; linarith
          have := pos_of_mul_pos_right p3 (sub_pos.mpr hu).le
          exact pos_of_mul_pos_right this (sub_pos.mpr hv).le
        · exfalso
          unfold ori at h
          rw [hv] at h
          have := mul_pos (sub_pos.mpr hu) (sub_pos.mpr hv')
          linarith
      · rcases hv with hv | ⟨hv, hv'⟩
        · exfalso
          unfold ori at h
          rw [hu] at h
          have := mul_pos (sub_pos.mpr hu') (sub_pos.mpr hv)
          linarith
        · rw [hu, hv]
          have := mul_pos (sub_pos.mpr hu') (sub_pos.mpr hv')
          linarith
    · exact Or.inl (Or.inr ⟨by simp only [hu, hv], h⟩)
  · exact Or.inl (Or.inl ⟨hu, hv⟩)
  · exact Or.inr (Or.inl ⟨hv, hu⟩)
  · rcases lt_trichotomy (ori p u v) 0 with h | h | h
    · exact Or.inr (Or.inr ⟨by simp only [hu, hv], by linarith⟩)
    · exfalso
      apply hd
      refine ⟨h, ?_⟩
      have hu2 := refl_lower hu nu
      have hv2 := refl_lower hv nv
      unfold Lower refl at hu2 hv2
      simp only at hu2 hv2
      rcases hu2 with hu | ⟨hu, hu'⟩
      · have hu1 : 0 < u.x - p.x := by linarith
        rcases hv2 with hv | ⟨hv, hv'⟩
        · have hv1 : 0 < v.x - p.x := by linarith
          have e : (u.x - p.x) * (v.y - p.y) = (u.y - p.y) * (v.x - p.x) := by
            unfold ori at h; linarith
          have id : (u.x - p.x) * ((v.x - p.x) * ((u.x - p.x) * (v.x - p.x) + (u.y - p.y) * (v.y - p.y))) =
              ((u.x - p.x) * (v.x - p.x)) ^ 2 + (u.y - p.y) ^ 2 * (v.x - p.x) ^ 2 := by
            linear_combination ((u.y - p.y) * (v.x - p.x)) * e
          have p1 : 0 < ((u.x - p.x) * (v.x - p.x)) ^ 2 := by positivity
          have p2 : 0 ≤ (u.y - p.y) ^ 2 * (v.x - p.x) ^ 2 := by positivity
          have p3 : 0 < (u.x - p.x) * ((v.x - p.x) * ((u.x - p.x) * (v.x - p.x) + (u.y - p.y) * (v.y - p.y))) := by
            rw [id]; linarith
          have := pos_of_mul_pos_right p3 hu1.le
          exact pos_of_mul_pos_right this hv1.le
        · exfalso
          have hv1 : v.x = p.x := by linarith
          have hv3 : 0 < v.y - p.y := by linarith
          unfold ori at h
          rw [hv1] at h
          have := mul_pos hu1 hv3
          linarith
      · have hu1 : u.x = p.x := by linarith
        have hu3 : 0 < u.y - p.y := by linarith
        rcases hv2 with hv | ⟨hv, hv'⟩
        · exfalso
          unfold ori at h
          rw [hu1] at h
          have := mul_pos hu3 (by linarith : 0 < v.x - p.x)
          linarith
        · have hv1 : v.x = p.x := by linarith
          rw [hu1, hv1]
          have := mul_pos hu3 (by linarith : 0 < v.y - p.y)
          linarith
    · exact Or.inl (Or.inr ⟨by simp only [hu, hv], h⟩)

/-- A direction between the two sides of a convex cone, in cyclic order, is in the cone. -/
theorem cone_of_cyc {p u v w : P2} (nu : u ≠ p) (nv : v ≠ p) (nw : w ≠ p) (h : CycLt p u v w)
    (hc : 0 < ori p u w) : 0 < ori p u v ∧ 0 < ori p v w := by
  have s1 := ori_swap23 p u v
  have s2 := ori_swap23 p v w
  have s3 := ori_swap23 p u w
  have ru := refl_left p u
  have ru' := fun x => refl_right p x u
  have rv := refl_left p v
  have rv' := fun x => refl_right p x v
  have rw1 := refl_left p w
  have rw' := fun x => refl_right p x w
  unfold CycLt AngLt at h
  by_cases hu : Lower p u <;> by_cases hv : Lower p v <;> by_cases hw : Lower p w <;>
    simp only [hu, hv, hw, not_true_eq_false, not_false_eq_true, and_false, false_and, and_true,
      true_and, false_or, or_false, iff_true, iff_self, iff_false,
      or_self, and_self] at h
  · -- all lower
    rcases h with h | h | h
    · exact h
    · linarith [h.2]
    · linarith [h.1]
  · -- u v lower, w upper
    refine ⟨h, ?_⟩
    have := lower_trans (refl_lower hw nw) hu hv (by rw [rw1]; linarith) h
    rw [rw1] at this; linarith
  · -- u lower, v upper, w lower
    exfalso
    linarith
  · -- u lower, v w upper
    refine ⟨?_, h⟩
    have := lower_trans (refl_lower hv nv) (refl_lower hw nw) hu
      (by rw [rv, rw']; linarith) (by rw [rw1]; linarith)
    rw [rv] at this; linarith
  · -- u upper, v w lower
    refine ⟨?_, h⟩
    have := lower_trans hv hw (refl_lower hu nu) h (by rw [ru']; linarith)
    rw [ru'] at this; linarith
  · exfalso
    linarith
  · refine ⟨h, ?_⟩
    have := lower_trans hw (refl_lower hu nu) (refl_lower hv nv)
      (by rw [ru']; linarith) (by rw [ru, rv']; linarith)
    rw [rv'] at this; linarith
  · rcases h with h | h | h
    · exact h
    · linarith [h.2]
    · linarith [h.1]

/-- Two triangles at `p` overlap if the first side of one is in the half-open cone of the other. -/
theorem overlap_vertex {p u v x y : P2} (h1 : 0 < ori p u v) (h2 : 0 < ori p x y)
    (k1 : 0 ≤ ori p u x) (k2 : 0 < ori p x v) :
    ∃ q, HalfOpen ⟨p, u, v⟩ q ∧ HalfOpen ⟨p, x, y⟩ q := by
  -- a direction `x + δ y` in both open cones
  obtain ⟨δ, hδ, g1, g2⟩ : ∃ δ : ℚ, 0 < δ ∧ 0 < ori p u x + δ * ori p u y ∧
      0 < ori p x v + δ * ori p y v := by
    obtain ⟨d2, hd2, f2⟩ := small_step (ori p x v) (ori p y v) k2
    rcases k1.eq_or_lt with k1 | k1
    · refine ⟨d2, hd2, ?_, f2 d2 hd2 le_rfl⟩
      have pl := plucker p u v x y
      have sv : ori p v x = - ori p x v := ori_swap23 _ _ _
      rw [← k1, sv] at pl
      have h3 : 0 < ori p u y * ori p x v := by
        have := mul_pos h1 h2; linarith
      have : 0 < ori p u y := (pos_iff_pos_of_mul_pos h3).mpr k2
      rw [← k1]
      have := mul_pos hd2 this
      linarith
    · obtain ⟨d1, hd1, f1⟩ := small_step (ori p u x) (ori p u y) k1
      exact ⟨min d1 d2, lt_min hd1 hd2, f1 _ (lt_min hd1 hd2) (min_le_left _ _),
        f2 _ (lt_min hd1 hd2) (min_le_right _ _)⟩
  let dx := (x.x - p.x) + δ * (y.x - p.x)
  let dy := (x.y - p.y) + δ * (y.y - p.y)
  obtain ⟨e1, he1, f1⟩ := small_step (ori p u v) ((v.x - u.x) * dy - (v.y - u.y) * dx) h1
  obtain ⟨e2, he2, f2⟩ := small_step (ori p x y) ((y.x - x.x) * dy - (y.y - x.y) * dx) h2
  let e := min e1 e2
  have he : 0 < e := lt_min he1 he2
  have q1 := f1 e he (min_le_left _ _)
  have q2 := f2 e he (min_le_right _ _)
  have hy := mul_pos hδ h2
  refine ⟨⟨p.x + e * dx, p.y + e * dy⟩, HalfOpen.of_interior ?_ ?_ ?_, HalfOpen.of_interior ?_ ?_ ?_⟩
  · have := mul_pos he g1
    refine lt_of_lt_of_eq this ?_
    simp only [dx, dy]
    unfold ori; ring
  · refine lt_of_lt_of_eq q1 ?_
    simp only [dx, dy]
    unfold ori; ring
  · have := mul_pos he g2
    refine lt_of_lt_of_eq this ?_
    simp only [dx, dy]
    unfold ori; ring
  · have := mul_pos he hy
    refine lt_of_lt_of_eq this ?_
    simp only [dx, dy]
    unfold ori; ring
  · refine lt_of_lt_of_eq q2 ?_
    simp only [dx, dy]
    unfold ori; ring
  · have := mul_pos he h2
    refine lt_of_lt_of_eq this ?_
    simp only [dx, dy]
    unfold ori; ring

/-- Neighbours in a sorted list. -/
theorem path_sorted {α : Type*} {R : α → α → Prop} {x : α} {l : List α} (hs : (x :: l).Pairwise R)
    {u v w : α} (huv : (u, v) ∈ path x l) (hw : w ∈ x :: l) :
    R u v ∧ (w = u ∨ w = v ∨ R w u ∨ R v w) := by
  induction l generalizing x w with
  | nil => simp [path] at huv
  | cons y l ih =>
    rw [List.pairwise_cons] at hs
    obtain ⟨h1, h2⟩ := hs
    rcases List.mem_cons.mp huv with h | h
    · simp only [Prod.mk.injEq] at h
      obtain ⟨rfl, rfl⟩ := h
      refine ⟨h1 v (by simp), ?_⟩
      rcases List.mem_cons.mp hw with h | h
      · exact Or.inl h
      · rcases List.mem_cons.mp h with h | h
        · exact Or.inr (Or.inl h)
        · rw [List.pairwise_cons] at h2
          exact Or.inr (Or.inr (Or.inr (h2.1 w h)))
    · rcases List.mem_cons.mp hw with hw | hw
      · have := ih h2 h (w := y) (by simp)
        refine ⟨this.1, Or.inr (Or.inr (Or.inl ?_))⟩
        rw [hw]
        have hu := (path_mem h).1
        rcases hu with rfl | hu
        · exact h1 _ (by simp)
        · exact h1 u (by simp [hu])
      · exact ih h2 h hw

/-- Cyclic neighbours in a sorted list have no other element between them. -/
theorem cyc_sorted {p : P2} {h : List P2} (hs : h.Pairwise (AngLt p)) {u v w : P2}
    (huv : (u, v) ∈ cyc h) (hw : w ∈ h) (h1 : w ≠ u) (h2 : w ≠ v) : CycLt p u v w := by
  cases h with
  | nil => simp at hw
  | cons a l =>
    rcases List.eq_nil_or_concat l with rfl | ⟨l, z, rfl⟩
    · simp [cyc, path] at huv hw
      exact (h1 (hw.trans huv.1.symm)).elim
    · simp only [cyc, List.append_assoc, List.singleton_append, List.concat_eq_append] at huv hs hw
      rw [path_append, List.mem_append] at huv
      rcases huv with huv | huv
      · have := path_sorted hs huv hw
        rcases this.2 with h | h | h | h
        · exact (h1 h).elim
        · exact (h2 h).elim
        · exact Or.inr (Or.inr ⟨h, this.1⟩)
        · exact Or.inl ⟨this.1, h⟩
      · simp only [path, List.mem_cons, Prod.mk.injEq, List.not_mem_nil, or_false] at huv
        obtain ⟨rfl, rfl⟩ := huv
        have hw' : w ∈ l := by
          simp only [List.mem_cons, List.mem_append, List.not_mem_nil, or_false] at hw; tauto
        rw [List.pairwise_cons, List.pairwise_append] at hs
        refine Or.inr (Or.inl ⟨hs.1 w (by simp [hw']), hs.2.2.2 w hw' u (by simp)⟩)

/-- The link edge of a triangle opposite `p`. -/
def linkE (p : P2) (t : T3) : P2 × P2 :=
  if t.a = p then (t.b, t.c) else if t.b = p then (t.c, t.a) else (t.a, t.b)

theorem linkE_rep {p : P2} {t : T3} (h : t.Has p) : t.Rep p (linkE p t).1 (linkE p t).2 := by
  unfold linkE
  by_cases h1 : t.a = p
  · rw [if_pos h1]; subst h1; exact Or.inl rfl
  · rw [if_neg h1]
    by_cases h2 : t.b = p
    · rw [if_pos h2]; subst h2; exact Or.inr (Or.inl rfl)
    · rw [if_neg h2]
      have : p = t.c := by rcases h with h | h | h
                           · exact (h1 h.symm).elim
                           · exact (h2 h.symm).elim
                           · exact h
      subst this; exact Or.inr (Or.inr rfl)

section

variable {s : T3} {V : P2 → Prop} {T P A : List T3} {p : P2} {h : List P2}

/-- No vertex other than `u` and `v` is seen in the closed cone of the triangle `p u v`
among the neighbours of `p`. -/
theorem link_only (I : Inv s V T) {t t' : T3} (ht : t ∈ T) (ht' : t' ∈ T) {u v x y : P2}
    (hr : t.Rep p u v) (hr' : t'.Rep p x y) (k1 : 0 ≤ ori p u x) (k2 : 0 < ori p x v) : x = u ∧ y = v := by
  have o1 := I.ccw t ht
  have o2 := I.ccw t' ht'
  rw [hr.or_eq] at o1
  rw [hr'.or_eq] at o2
  obtain ⟨q, q1, q2⟩ := overlap_vertex o1 o2 k1 k2
  have hq1 := (hr.half_iff q).mpr q1
  have hq2 := (hr'.half_iff q).mpr q2
  have he : t = t' := by
    by_contra hne
    have sym : Std.Symm (fun t u : T3 => ∀ q, ¬ (HalfOpen t q ∧ HalfOpen u q)) :=
      ⟨fun a b h q hq => h q ⟨hq.2, hq.1⟩⟩
    exact I.disjoint.forall ht ht' hne q ⟨hq1, hq2⟩
  subst he
  have n := ne_of_ori_pos o1
  have n2 := ne_of_ori_pos o2
  have e1 : (p, x) ∈ t.edges := (t.mem_edges_iff p x).mpr ⟨y, hr'⟩
  have e2 : (x, y) ∈ t.edges := (hr'.edges_iff _).mpr (Or.inr (Or.inl rfl))
  rcases (hr.edges_iff _).mp e1 with h | h | h
  · simp only [Prod.mk.injEq] at h
    refine ⟨h.2, ?_⟩
    rcases (hr.edges_iff _).mp e2 with g | g | g
    · simp only [Prod.mk.injEq] at g; exact (n2.1 g.1.symm).elim
    · simp only [Prod.mk.injEq] at g; exact g.2
    · simp only [Prod.mk.injEq] at g; exact (n2.2.2 g.2).elim
  · simp only [Prod.mk.injEq] at h; exact (n.1 h.1).elim
  · simp only [Prod.mk.injEq] at h; exact (n.2.2 h.1.symm).elim

/-- Every neighbour of an inner vertex starts a link edge. -/
theorem link_succ (I : Inv s V T) (hp : V p) {t : T3} (ht : t ∈ T) (hpt : t.Has p) {u : P2}
    (hu : t.Has u) (hup : u ≠ p) : ∃ t' ∈ T, ∃ v, t'.Rep p u v := by
  obtain ⟨a, b, hr⟩ := T3.edge_of_has hpt
  rcases (hr.has_iff u).mp hu with rfl | rfl | rfl
  · exact (hup rfl).elim
  · exact ⟨t, ht, b, hr⟩
  · have he : (u, p) ∈ edgesOf T :=
      mem_edgesOf.mpr ⟨t, ht, (hr.edges_iff _).mpr (Or.inr (Or.inr rfl))⟩
    rcases I.rev_or_super he with h | h
    · obtain ⟨t', ht', e⟩ := mem_edgesOf.mp h
      obtain ⟨v, hv⟩ := (t'.mem_edges_iff p u).mp e
      exact ⟨t', ht', v, hv⟩
    · exact (Inv.not_super_of_inside (I.inside p hp) (T3.has_of_edge h).2).elim

/-- **Start of removal**: the neighbours of `p` sorted by direction bound the hole. -/
theorem remove_hole (I : Inv s V T) (hp : V p) (hT : T.Perm (P ++ A)) (hP : ∀ t ∈ P, t.Has p)
    (hA : ∀ t ∈ A, ¬ t.Has p) (hn : h.Nodup) (hm : ∀ x, x ∈ h ↔ x ≠ p ∧ ∃ t ∈ P, t.Has x)
    (hs : h.Pairwise (AngLt p)) : Star (fun x => (V x ∧ x ≠ p) ∨ s.Has x) p 0 h ∧
      Hole s (fun x => (V x ∧ x ≠ p) ∨ s.Has x) p A h := by
  have mP : ∀ t ∈ P, t ∈ T := fun t k => hT.mem_iff.mpr (List.mem_append_left _ k)
  have mA : ∀ t ∈ A, t ∈ T := fun t k => hT.mem_iff.mpr (List.mem_append_right _ k)
  have inP : ∀ t ∈ T, t.Has p → t ∈ P := by
    intro t k1 k2
    rcases List.mem_append.mp (hT.mem_iff.mp k1) with k | k
    · exact k
    · exact (hA t k k2).elim
  have psup := Inv.not_super_of_inside (I.inside p hp)
  have wof : ∀ t ∈ T, ∀ x, t.Has x → x ≠ p → (V x ∧ x ≠ p) ∨ s.Has x := by
    intro t ht x hx hne
    rcases I.verts t ht x hx with k | k
    · exact Or.inl ⟨k, hne⟩
    · exact Or.inr k
  have wV : ∀ x, ((V x ∧ x ≠ p) ∨ s.Has x) → V x ∨ s.Has x := by tauto
  have wne : ∀ x, ((V x ∧ x ≠ p) ∨ s.Has x) → x ≠ p := by
    rintro x (k | k)
    · exact k.2
    · rintro rfl; exact psup k
  have repne : ∀ t ∈ T, ∀ u v, t.Rep p u v → u ≠ p ∧ v ≠ p ∧ u ≠ v := by
    intro t ht u v hr
    have := I.ccw t ht
    rw [hr.or_eq] at this
    have n := ne_of_ori_pos this
    exact ⟨n.1.symm, n.2.2, n.2.1⟩
  have memh : ∀ t ∈ T, ∀ u v, t.Rep p u v → u ∈ h ∧ v ∈ h := by
    intro t ht u v hr
    have n := repne t ht u v hr
    have htp : t ∈ P := inP t ht ((hr.has_iff p).mpr (Or.inl rfl))
    exact ⟨(hm u).mpr ⟨n.1, t, htp, (hr.has_iff u).mpr (Or.inr (Or.inl rfl))⟩,
      (hm v).mpr ⟨n.2.1, t, htp, (hr.has_iff v).mpr (Or.inr (Or.inr rfl))⟩⟩
  have succ : ∀ u ∈ h, ∃ t ∈ T, ∃ v, t.Rep p u v := by
    intro u hu
    obtain ⟨hne, t, ht, hx⟩ := (hm u).mp hu
    exact link_succ I hp (mP t ht) (hP t ht) hx hne
  -- link edges seen from `p`: nothing else in the cone
  have only : ∀ t ∈ T, ∀ u v, t.Rep p u v → ∀ x ∈ h, 0 ≤ ori p u x → 0 ≤ ori p x v → x = u ∨ x = v := by
    intro t ht u v hr x hx k1 k2
    obtain ⟨t', ht', y, hr'⟩ := succ x hx
    rcases k2.eq_or_lt with k2 | k2
    · -- same direction as `v`
      right
      obtain ⟨t2, ht2, w, hr2⟩ := succ v (memh t ht u v hr).2
      have o1 := I.ccw t ht
      rw [hr.or_eq] at o1
      have o2 := I.ccw t2 ht2
      rw [hr2.or_eq] at o2
      have o3 := I.ccw t' ht'
      rw [hr'.or_eq] at o3
      have sx : ori p v x = - ori p x v := ori_swap23 _ _ _
      have hvx : ori p v x = 0 := by linarith
      have k3 : 0 < ori p u x := by
        rcases k1.eq_or_lt with k1 | k1
        · exfalso
          have pl := plucker p u v x y
          have sv : ori p v x = 0 := hvx
          rw [sv, ← k1] at pl
          have := mul_pos o1 o3
          linarith
        · exact k1
      have pl := plucker p u v x w
      rw [hvx] at pl
      have e : ori p u v * ori p x w = ori p u x * ori p v w := by linarith
      have hxw : 0 < ori p x w := by
        have h3 : 0 < ori p u v * ori p x w := by rw [e]; exact mul_pos k3 o2
        exact pos_of_mul_pos_right h3 o1.le
      exact (link_only I ht2 ht' hr2 hr' hvx.ge hxw).1
    · exact Or.inl (link_only I ht ht' hr hr' k1 k2).1
  -- link edges are the cyclic neighbours
  have link_cyc : ∀ t ∈ T, ∀ u v, t.Rep p u v → (u, v) ∈ cyc h := by
    intro t ht u v hr
    obtain ⟨hu, hv⟩ := memh t ht u v hr
    obtain ⟨v', hv'⟩ := cyc_succ hu
    by_cases he : v = v'
    · rw [he]; exact hv'
    · exfalso
      have n := repne t ht u v hr
      have hc := cyc_sorted hs hv' hv n.2.2.symm he
      have hv'h := (cyc_mem hv').2
      have o1 := I.ccw t ht
      rw [hr.or_eq] at o1
      have cone := cone_of_cyc n.1 ((hm v').mp hv'h).1 n.2.1 hc o1
      rcases only t ht u v hr v' hv'h cone.1.le cone.2.le with k | k
      · have := cone.1; rw [k] at this; simp at this
      · exact he k.symm
  have cyc_link : ∀ u v, (u, v) ∈ cyc h → ∃ t ∈ T, t.Rep p u v := by
    intro u v huv
    obtain ⟨t, ht, v', hr⟩ := succ u (cyc_mem huv).1
    have := cyc_succ_unique hn huv (link_cyc t ht u v' hr)
    subst this
    exact ⟨t, ht, hr⟩
  have star : Star (fun x => (V x ∧ x ≠ p) ∨ s.Has x) p 0 h := by
    refine ⟨?_, ?_, ?_, ?_, ?_⟩
    · -- the hull is not empty
      obtain ⟨t, ht, hpt⟩ := I.vertex_of_mem hp
      obtain ⟨u, v, hr⟩ := T3.edge_of_has hpt
      exact List.ne_nil_of_mem (memh t ht u v hr).1
    · intro u v huv
      obtain ⟨t, ht, r⟩ := cyc_link u v huv
      have := I.ccw t ht
      rwa [r.or_eq] at this
    · intro u v huv
      obtain ⟨t, ht, r⟩ := cyc_link u v huv
      exact only t ht u v r
    · intro u v huv x hx k1 k2
      obtain ⟨t, ht, r⟩ := cyc_link u v huv
      have o := I.ccw t ht
      by_contra hgt
      push Not at hgt
      have o' := o
      rw [r.or_eq] at o'
      have hcl := T3.pow_closed ⟨p, u, v⟩ o' x k1 hgt.le (by
        change 0 ≤ ori v p x
        have : ori v p x = ori p x v := by unfold ori; ring
        rw [this]; exact k2)
      rw [← r.pow_eq o.ne'] at hcl
      rcases hcl.2 (le_antisymm hcl.1 (I.del t ht x (wV x hx))) with k | k | k
      · exact wne x hx k
      · simp only at k; rw [k] at hgt; simp at hgt
      · simp only at k; rw [k] at hgt; simp at hgt
    · intro u v huv x hx
      obtain ⟨t, ht, r⟩ := cyc_link u v huv
      have o := I.ccw t ht
      have k := I.del t ht x (wV x hx)
      rw [r.pow_eq o.ne'] at k
      rw [cq_ev]
      simpa [T3.pow] using k
  refine ⟨star, fun t ht => I.ccw t (mA t ht), ?_, ?_, ?_, hn, ?_, Or.inl ⟨0, star⟩⟩
  · intro t ht x hx
    exact wof t (mA t ht) x hx (by rintro rfl; exact hA t ht hx)
  · intro t ht x hx
    exact I.del t (mA t ht) x (wV x hx)
  · -- chain
    intro f hf
    rw [← I.chain f hf, tsum_perm f hT, tsum_append, add_comm, add_left_inj]
    have hL : (P.map (linkE p)).Perm (cyc h) := by
      have hcn : (cyc h).Nodup := by
        have := hn
        rw [← cyc_map_fst h] at this
        exact this.of_map
      have hPn : (P.map (linkE p)).Nodup := by
        have e1 : (edgesOf P).Nodup := by
          have k := (edgesOf_perm hT).nodup_iff.mp I.edges_nodup
          rw [edgesOf, List.flatMap_append] at k
          exact (List.nodup_append.mp k).1
        unfold edgesOf at e1
        rw [List.nodup_flatMap] at e1
        refine List.pairwise_map.mpr (e1.2.imp_of_mem ?_)
        intro a b ha hb hd he
        have r1 := linkE_rep (hP a ha)
        have r2 := linkE_rep (hP b hb)
        rw [he] at r1
        exact hd ((r1.edges_iff _).mpr (Or.inl rfl)) ((r2.edges_iff _).mpr (Or.inl rfl))
      refine (List.perm_ext_iff_of_nodup hPn hcn).mpr ?_
      rintro ⟨u, v⟩
      rw [List.mem_map]
      constructor
      · rintro ⟨t, ht, he⟩
        have r := linkE_rep (hP t ht)
        rw [he] at r
        exact link_cyc t (mP t ht) u v r
      · intro k
        obtain ⟨t, ht, r⟩ := cyc_link u v k
        have hpt : t.Has p := (r.has_iff p).mpr (Or.inl rfl)
        refine ⟨t, inP t ht hpt, ?_⟩
        have r' := linkE_rep hpt
        have n := repne t ht u v r
        have n' := repne t ht _ _ r'
        have e := (r.edges_iff _).mp ((r'.edges_iff _).mpr (Or.inr (Or.inl rfl)))
        rcases e with e | e | e
        · simp only [Prod.mk.injEq] at e; exact (n'.1 e.1).elim
        · exact e
        · simp only [Prod.mk.injEq] at e; exact (n'.2.1 e.2).elim
    have e1 : tsum f P = ((P.map (linkE p)).map (fun e => f e.1 e.2 + (f p e.1 - f p e.2))).sum := by
      clear hL hm hT mP inP memh succ only link_cyc cyc_link
      induction P with
      | nil => rfl
      | cons t P ih =>
        rw [tsum_cons, ih (fun t k => hP t (List.mem_cons_of_mem _ k)),
          (linkE_rep (hP t (by simp))).esum_eq]
        simp only [List.map_cons, List.sum_cons]
        have := hf (linkE p t).2 p
        linarith
    rw [e1, (hL.map _).sum_eq]
    unfold csum
    have e2 : ∀ L : List (P2 × P2), (L.map (fun e => f e.1 e.2 + (f p e.1 - f p e.2))).sum =
        (L.map (fun e => f e.1 e.2)).sum + (((L.map Prod.fst).map (f p)).sum -
          ((L.map Prod.snd).map (f p)).sum) := by
      intro L
      induction L with
      | nil => rfl
      | cons e L ih => simp only [List.map_cons, List.sum_cons, ih]; ring
    rw [e2, cyc_map_fst, ((cyc_map_snd h).map (f p)).sum_eq]
    ring
  · intro x hx
    obtain ⟨hne, t, ht, hxt⟩ := (hm x).mp hx
    exact wof t (mP t ht) x hxt hne

end

end Verif.Tri

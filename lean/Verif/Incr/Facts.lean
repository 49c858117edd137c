import Verif.Incr.History
import Verif.Tri.Unique

/-!
# From the invariant to the specification vocabulary
-/

namespace Verif.Incr

open Verif.Tri Verif.Spec

theorem area2_ori (a b : Pt) (q : P2) : area2 a b q = ori (toP a) (toP b) q := by
  unfold area2 ori toP; ring

theorem loc_toP (p : Pt) : loc p = toP p := rfl

theorem nondeg_iff (t : Tri) : NonDegenerate t ↔ 0 < (norm t).or := by
  rw [norm_or]; unfold NonDegenerate; rw [area2_ori]; rfl

/-! ### Circles -/

theorem pow_centre {t : Tri} (h : NonDegenerate t) {o : P2} (hc : Centre t o) (x : P2) :
    (norm t).pow x = ((o.x - x.x) ^ 2 + (o.y - x.y) ^ 2) - d2 o t.a := by
  have ho := (nondeg_iff t).mp h
  set f : Pw := ⟨-2 * o.x, -2 * o.y, o.x ^ 2 + o.y ^ 2 - d2 o t.a⟩ with hf
  have hev : ∀ x : P2, f.ev x = ((o.x - x.x) ^ 2 + (o.y - x.y) ^ 2) - d2 o t.a := by
    intro x; rw [hf]; unfold Pw.ev; ring
  rw [← hev]
  have hz : ∀ y, (norm t).Has y → f.ev y = 0 := by
    intro y hy
    rw [hev]
    obtain ⟨c1, c2⟩ := hc
    rcases (norm_has t y).mp hy with rfl | rfl | rfl
    · unfold d2 toP; simp
    · rw [c1]; unfold d2 toP; simp
    · rw [c2]; unfold d2 toP; simp
  refine Pw.unique _ _ (norm t).a (norm t).b (norm t).c ho.ne' ?_ ?_ ?_ x
  · rw [hz _ (Or.inl rfl)]; exact (norm t).pow_vertex ho.ne' (Or.inl rfl)
  · rw [hz _ (Or.inr (Or.inl rfl))]; exact (norm t).pow_vertex ho.ne' (Or.inr (Or.inl rfl))
  · rw [hz _ (Or.inr (Or.inr rfl))]; exact (norm t).pow_vertex ho.ne' (Or.inr (Or.inr rfl))

theorem centre_exists {t : Tri} (h : NonDegenerate t) : ∃ o, Centre t o := by
  have ho := (nondeg_iff t).mp h
  set f := pwT (norm t).a (norm t).b (norm t).c with hf
  have hv : ∀ y, (norm t).Has y → f.ev y = 0 := fun y hy => (norm t).pow_vertex ho.ne' hy
  have hd : ∀ p : Pt, d2 ⟨-f.al / 2, -f.be / 2⟩ p = f.ev (toP p) + (f.al ^ 2 / 4 + f.be ^ 2 / 4 - f.ga) := by
    intro p; unfold d2 Pw.ev toP; ring
  refine ⟨⟨-f.al / 2, -f.be / 2⟩, ?_, ?_⟩
  · rw [hd, hd, hv _ ((norm_has t _).mpr (Or.inl rfl)), hv _ ((norm_has t _).mpr (Or.inr (Or.inl rfl)))]
  · rw [hd, hd, hv _ ((norm_has t _).mpr (Or.inl rfl)), hv _ ((norm_has t _).mpr (Or.inr (Or.inr rfl)))]

theorem pow_d2 {t : Tri} (h : NonDegenerate t) {o : P2} (hc : Centre t o) (p : Pt) :
    (norm t).pow (toP p) = d2 o p - d2 o t.a := pow_centre h hc (toP p)

theorem inside_iff {t : Tri} (h : NonDegenerate t) (p : Pt) : InsideCircle t p ↔ (norm t).pow (toP p) < 0 := by
  constructor
  · rintro ⟨o, hc, hlt⟩; rw [pow_d2 h hc]; linarith
  · intro hlt
    obtain ⟨o, hc⟩ := centre_exists h
    rw [pow_d2 h hc] at hlt
    exact ⟨o, hc, by linarith⟩

theorem disc_iff {t : Tri} (h : NonDegenerate t) (p : Pt) : InDisc t p ↔ (norm t).pow (toP p) ≤ 0 := by
  constructor
  · rintro ⟨o, hc, hlt⟩; rw [pow_d2 h hc]; linarith
  · intro hlt
    obtain ⟨o, hc⟩ := centre_exists h
    rw [pow_d2 h hc] at hlt
    exact ⟨o, hc, by linarith⟩

/-! ### Open, half-open and closed triangles -/

theorem area2_sum (t : Tri) (q : P2) :
    area2 t.a t.b q + area2 t.b t.c q + area2 t.c t.a q = area2 t.a t.b (loc t.c) := by
  unfold area2 loc; ring

theorem area2_neg (a b : Pt) (q : P2) : ori (toP b) (toP a) q = - area2 a b q := by
  unfold area2 ori toP; ring

/-- Interior of the normalised triangle. -/
theorem interior_iff {t : Tri} (h : NonDegenerate t) (q : P2) : Interior t q ↔
    0 < ori (norm t).a (norm t).b q ∧ 0 < ori (norm t).b (norm t).c q ∧ 0 < ori (norm t).c (norm t).a q := by
  have hs := area2_sum t q
  unfold NonDegenerate at h
  unfold norm
  by_cases hp : 0 < ori (toP t.a) (toP t.b) (toP t.c)
  · rw [if_pos hp]
    simp only
    rw [← area2_ori] at hp
    rw [← area2_ori, ← area2_ori, ← area2_ori]
    rw [loc_toP] at hs
    constructor
    · rintro (k | k)
      · exact k
      · exfalso; linarith [k.1, k.2.1, k.2.2]
    · exact Or.inl
  · rw [if_neg hp]
    simp only
    rw [← area2_ori] at hp
    rw [area2_neg t.a t.b, area2_neg t.c t.a, area2_neg t.b t.c]
    rw [loc_toP] at hs
    constructor
    · rintro (k | k)
      · exfalso; linarith [k.1, k.2.1, k.2.2]
      · exact ⟨by linarith [k.1], by linarith [k.2.2], by linarith [k.2.1]⟩
    · rintro ⟨k1, k2, k3⟩
      exact Or.inr ⟨by linarith, by linarith, by linarith⟩

theorem closed_of {t : Tri} {q : P2} (h1 : 0 ≤ ori (norm t).a (norm t).b q)
    (h2 : 0 ≤ ori (norm t).b (norm t).c q) (h3 : 0 ≤ ori (norm t).c (norm t).a q) : Closed t q := by
  unfold norm at h1 h2 h3
  by_cases hp : 0 < ori (toP t.a) (toP t.b) (toP t.c)
  · rw [if_pos hp] at h1 h2 h3
    simp only [← area2_ori] at h1 h2 h3
    exact Or.inl ⟨h1, h2, h3⟩
  · rw [if_neg hp] at h1 h2 h3
    simp only at h1 h2 h3
    rw [area2_neg t.a t.b] at h1
    rw [area2_neg t.c t.a] at h2
    rw [area2_neg t.b t.c] at h3
    exact Or.inr ⟨by linarith, by linarith, by linarith⟩

/-- Pushing a location: sign of the side of an edge. -/
theorem push_side {u v q : P2} (hne : u ≠ v) :
    (onLeft u v q → ∃ e0 : ℚ, 0 < e0 ∧ ∀ e : ℚ, 0 < e → e ≤ e0 → 0 < ori u v ⟨q.x - e, q.y + e ^ 2⟩) ∧
    (¬ onLeft u v q → ∃ e0 : ℚ, 0 < e0 ∧ ∀ e : ℚ, 0 < e → e ≤ e0 → ¬ 0 < ori u v ⟨q.x - e, q.y + e ^ 2⟩) := by
  have key : ∀ e : ℚ, ori u v ⟨q.x - e, q.y + e ^ 2⟩ = ori u v q + e * ((v.y - u.y) + e * (v.x - u.x)) := by
    intro e; unfold ori; ring
  -- a positive constant dominates
  have dom : ∀ c k l : ℚ, 0 < c → ∃ e0 : ℚ, 0 < e0 ∧ ∀ e : ℚ, 0 < e → e ≤ e0 → 0 < c + e * (k + e * l) := by
    intro c k l hc
    obtain ⟨e1, h1, k1⟩ := small_step c (k - |l|) hc
    refine ⟨min e1 1, lt_min h1 one_pos, fun e he hle => ?_⟩
    have ha := k1 e he (hle.trans (min_le_left _ _))
    have h2 : e ≤ 1 := hle.trans (min_le_right _ _)
    have hl := neg_abs_le l
    have habs := abs_nonneg l
    have h3 : -|l| ≤ e * l := by
      have : e * (-|l|) ≤ e * l := mul_le_mul_of_nonneg_left hl he.le
      have : -|l| ≤ e * (-|l|) := by nlinarith
      linarith
    have h4 := mul_le_mul_of_nonneg_left h3 he.le
    have e1' : e * (k - |l|) = e * k + e * (-|l|) := by ring
    have e2' : e * (k + e * l) = e * k + e * (e * l) := by ring
    rw [e2']
    linarith
  rcases lt_trichotomy (ori u v q) 0 with ho | ho | ho
  · constructor
    · intro h
      have := onLeft_nonneg h
      linarith
    · intro _
      obtain ⟨e0, h0, k0⟩ := dom (-(ori u v q)) (-(v.y - u.y)) (-(v.x - u.x)) (by linarith)
      refine ⟨e0, h0, fun e he hle hpos => ?_⟩
      have := k0 e he hle
      rw [key] at hpos
      nlinarith
  · have ex : ∀ c l : ℚ, 0 < c → ∃ e0 : ℚ, 0 < e0 ∧ ∀ e : ℚ, 0 < e → e ≤ e0 → 0 < e * (c + e * l) := by
      intro c l hc
      obtain ⟨e1, h1, k1⟩ := small_step c l hc
      exact ⟨e1, h1, fun e he hle => mul_pos he (k1 e he hle)⟩
    unfold onLeft
    rw [ho]
    rcases lt_trichotomy u.y v.y with hy | hy | hy
    · rw [if_pos (show ownEdge u v from Or.inl hy)]
      refine ⟨fun _ => ?_, fun h => (h (le_refl _)).elim⟩
      obtain ⟨e0, h0, k0⟩ := ex (v.y - u.y) (v.x - u.x) (by linarith)
      exact ⟨e0, h0, fun e he hle => by rw [key, ho]; have := k0 e he hle; linarith⟩
    · rcases lt_trichotomy u.x v.x with hx | hx | hx
      · rw [if_pos (show ownEdge u v from Or.inr ⟨hy, hx⟩)]
        refine ⟨fun _ => ⟨1, one_pos, fun e he _ => ?_⟩, fun h => (h (le_refl _)).elim⟩
        rw [key, ho, hy]
        have := mul_pos he (mul_pos he (sub_pos.mpr hx))
        linarith
      · exact (hne (P2.ext hx hy)).elim
      · rw [if_neg (show ¬ ownEdge u v by rintro (h | h) <;> [linarith; linarith [h.2]])]
        refine ⟨fun h => (lt_irrefl _ h).elim, fun _ => ⟨1, one_pos, fun e he _ => ?_⟩⟩
        rw [key, ho, hy]
        have := mul_pos he (mul_pos he (sub_pos.mpr hx))
        nlinarith
    · rw [if_neg (show ¬ ownEdge u v by rintro (h | h) <;> [linarith; linarith [h.1]])]
      refine ⟨fun h => (lt_irrefl _ h).elim, fun _ => ?_⟩
      obtain ⟨e0, h0, k0⟩ := ex (u.y - v.y) (u.x - v.x) (by linarith)
      refine ⟨e0, h0, fun e he hle => ?_⟩
      rw [key, ho]
      have := k0 e he hle
      nlinarith
  · constructor
    · intro _
      obtain ⟨e0, h0, k0⟩ := dom (ori u v q) (v.y - u.y) (v.x - u.x) ho
      exact ⟨e0, h0, fun e he hle => by rw [key]; exact k0 e he hle⟩
    · intro h; exact (h (onLeft_of_pos ho)).elim

theorem owns_iff {t : Tri} (h : NonDegenerate t) (q : P2) : Owns t q ↔ HalfOpen (norm t) q := by
  have n := ne_of_ori_pos ((nondeg_iff t).mp h)
  have p1 := push_side (q := q) n.1
  have p2 := push_side (q := q) n.2.1
  have p3 := push_side (q := q) n.2.2
  have bad : ∀ {u v : P2}, ¬ onLeft u v q →
      (∃ e0 : ℚ, 0 < e0 ∧ ∀ e : ℚ, 0 < e → e ≤ e0 → ¬ 0 < ori u v ⟨q.x - e, q.y + e ^ 2⟩) →
      (∃ e0 : ℚ, 0 < e0 ∧ ∀ e : ℚ, 0 < e → e ≤ e0 → 0 < ori u v ⟨q.x - e, q.y + e ^ 2⟩) → False := by
    rintro u v - ⟨a, ha, k⟩ ⟨b, hb, l⟩
    exact k (min a b) (lt_min ha hb) (min_le_left _ _) (l (min a b) (lt_min ha hb) (min_le_right _ _))
  constructor
  · rintro ⟨e0, h0, k⟩
    have k' := fun e he hle => (interior_iff h _).mp (k e he hle)
    refine ⟨?_, ?_, ?_⟩ <;> by_contra hn
    · exact bad hn (p1.2 hn) ⟨e0, h0, fun e he hle => (k' e he hle).1⟩
    · exact bad hn (p2.2 hn) ⟨e0, h0, fun e he hle => (k' e he hle).2.1⟩
    · exact bad hn (p3.2 hn) ⟨e0, h0, fun e he hle => (k' e he hle).2.2⟩
  · rintro ⟨h1, h2, h3⟩
    obtain ⟨a, ha, ka⟩ := p1.1 h1
    obtain ⟨b, hb, kb⟩ := p2.1 h2
    obtain ⟨c, hc, kc⟩ := p3.1 h3
    refine ⟨min a (min b c), lt_min ha (lt_min hb hc), fun e he hle => (interior_iff h _).mpr ⟨?_, ?_, ?_⟩⟩
    · exact ka e he (hle.trans (min_le_left _ _))
    · exact kb e he (hle.trans ((min_le_right _ _).trans (min_le_left _ _)))
    · exact kc e he (hle.trans ((min_le_right _ _).trans (min_le_right _ _)))

/-! ### Vertices -/

theorem isVertex_iff (t : Tri) (v : Pt) : IsVertex t v ↔ (norm t).Has (toP v) := by
  unfold IsVertex
  rw [norm_has]
  constructor
  · rintro (h | h | h) <;> rw [h] <;> simp
  · rintro (h | h | h) <;> have := toP_inj h <;> simp [this]

theorem isVertex_bool (t : Tri) (v : Pt) : t.hasVertex v = true ↔ IsVertex t v := by
  rw [isVertex_iff, hasVertex_iff]

theorem super_edge_mem {s : T3} {V : P2 → Prop} {T : List T3} (I : Inv s V T) {u v : P2}
    (h : (u, v) ∈ s.edges) : (u, v) ∈ edgesOf T := by
  have h1 := I.chain _ (Inv.eInd_anti u v)
  have h3 : esum (Inv.eInd u v) s = (s.edges.count (u, v) : ℤ) - s.edges.count (v, u) := by
    rw [← Inv.eInd_sum]; simp [esum, T3.edges]; ring
  rw [tsum_eq_edges, Inv.eInd_sum, h3] at h1
  have n := ne_of_ori_pos I.sccw
  have hrev : (v, u) ∉ s.edges := by
    intro hr
    simp only [T3.edges, List.mem_cons, Prod.mk.injEq, List.not_mem_nil, or_false] at h hr
    rcases h with ⟨rfl, rfl⟩ | ⟨rfl, rfl⟩ | ⟨rfl, rfl⟩ <;>
      rcases hr with ⟨e1, e2⟩ | ⟨e1, e2⟩ | ⟨e1, e2⟩ <;>
      first
        | exact n.1 e1 | exact n.1 e2 | exact n.2.1 e1 | exact n.2.1 e2 | exact n.2.2 e1 | exact n.2.2 e2
        | exact n.1 e1.symm | exact n.1 e2.symm | exact n.2.1 e1.symm | exact n.2.1 e2.symm
        | exact n.2.2 e1.symm | exact n.2.2 e2.symm
  rw [List.count_eq_zero.mpr hrev] at h1
  have h2 : 0 < s.edges.count (u, v) := List.count_pos_iff.mpr h
  have : 0 < (edgesOf T).count (u, v) := by omega
  exact List.count_pos_iff.mp this

namespace DInv

variable {g : Geo} {w h : Nat} {d : D} {s : Multiset Pt}

theorem nondeg (I : DInv g w h d s) {t : Tri} (ht : t ∈ live d) : NonDegenerate t :=
  (nondeg_iff t).mpr (I.inv.ccw _ (List.mem_map_of_mem ht))

theorem inImg_not_super (k : SizeOk w h) {p : Pt} (hp : InImg w h p) : ¬ IsVertex (newSuperTriangle w h) p := by
  rw [isVertex_iff]
  exact Inv.not_super_of_inside (img_inside k hp)

theorem vertex_iff (I : DInv g w h d s) (v : Pt) :
    (∃ t ∈ live d, IsVertex t v) ↔ v ∈ s ∨ IsVertex (newSuperTriangle w h) v := by
  constructor
  · rintro ⟨t, ht, hv⟩
    rcases I.inv.verts _ (List.mem_map_of_mem ht) _ ((isVertex_iff t v).mp hv) with ⟨p, hp, he⟩ | h2
    · left; rw [toP_inj he]; exact hp
    · right; exact (isVertex_iff _ _).mpr h2
  · rintro (hv | hv)
    · obtain ⟨T, hT, hh⟩ := I.inv.vertex_of_mem (x := toP v) ⟨v, hv, rfl⟩
      obtain ⟨t, ht, rfl⟩ := List.mem_map.mp hT
      exact ⟨t, ht, (isVertex_iff t v).mpr hh⟩
    · rw [isVertex_iff] at hv
      obtain ⟨u, x, hr⟩ := T3.edge_of_has hv
      have he := super_edge_mem I.inv ((T3.mem_edges_iff _ _ _).mpr ⟨x, hr⟩)
      obtain ⟨T, hT, hh⟩ := mem_edgesOf.mp he
      obtain ⟨t, ht, rfl⟩ := List.mem_map.mp hT
      exact ⟨t, ht, (isVertex_iff t v).mpr (T3.has_of_edge hh).1⟩

/-- Triangles passed to the callback of `IterTriangles`. -/
theorem iter_iff (I : DInv g w h d s) (k : SizeOk w h) (t : Tri) :
    t ∈ iterTriangles d ↔ t ∈ live d ∧ t.a ∈ s ∧ t.b ∈ s ∧ t.c ∈ s := by
  have hv : ∀ t ∈ live d, ∀ v, IsVertex t v → (v ∈ s ↔ ¬ IsVertex (newSuperTriangle w h) v) := by
    intro t ht v hvt
    constructor
    · intro hs; exact inImg_not_super k (I.img v hs)
    · intro hn; exact ((I.vertex_iff v).mp ⟨t, ht, hvt⟩).resolve_right hn
  unfold iterTriangles live at *
  rw [List.mem_filter, List.mem_filter, I.sup]
  generalize newSuperTriangle w h = S at hv ⊢
  simp only [Bool.and_eq_true, bne_iff_ne, ne_eq]
  constructor
  · rintro ⟨h1, h2, h3⟩
    have ht : t ∈ List.filter (fun t => !t.freed) d.tris := List.mem_filter.mpr ⟨h1, h2⟩
    refine ⟨⟨h1, h2⟩, (hv t ht _ (Or.inl rfl)).mpr ?_, (hv t ht _ (Or.inr (Or.inl rfl))).mpr ?_,
      (hv t ht _ (Or.inr (Or.inr rfl))).mpr ?_⟩ <;> (unfold IsVertex; tauto)
  · rintro ⟨⟨h1, h2⟩, ha, hb, hc⟩
    have ht : t ∈ List.filter (fun t => !t.freed) d.tris := List.mem_filter.mpr ⟨h1, h2⟩
    have ea := (hv t ht _ (Or.inl rfl)).mp ha
    have eb := (hv t ht _ (Or.inr (Or.inl rfl))).mp hb
    have ec := (hv t ht _ (Or.inr (Or.inr rfl))).mp hc
    unfold IsVertex at ea eb ec
    refine ⟨h1, h2, ?_⟩
    tauto

/-! ### HasPoint -/

theorem hasPointLoop_spec (d : D) (p : Pt) : ∀ ks : List Nat,
    (∀ i ∈ ks, ∃ t, d.tris[i]? = some t ∧ t.freed = false) →
    ∃ b, hasPointLoop d p ks = some b ∧
      (b = true ↔ ∃ i ∈ ks, ∃ t, d.tris[i]? = some t ∧ t.hasVertex p = true) := by
  intro ks
  induction ks with
  | nil => intro _; exact ⟨false, rfl, by simp⟩
  | cons k ks ih =>
    intro hk
    obtain ⟨t, ht, hf⟩ := hk k (by simp)
    obtain ⟨b, h1, h2⟩ := ih (fun i hi => hk i (by simp [hi]))
    unfold hasPointLoop
    simp only [ht]
    rw [if_neg (by simp [hf])]
    by_cases hv : t.hasVertex p = true
    · rw [if_pos hv]
      exact ⟨true, rfl, by simp only [true_iff]; exact ⟨k, by simp, t, ht, hv⟩⟩
    · rw [if_neg hv]
      refine ⟨b, h1, h2.trans ?_⟩
      constructor
      · rintro ⟨i, hi, r⟩; exact ⟨i, by simp [hi], r⟩
      · rintro ⟨i, hi, u, hu, hv'⟩
        rcases List.mem_cons.mp hi with rfl | hi
        · rw [ht] at hu; cases hu; exact (hv hv').elim
        · exact ⟨i, hi, u, hu, hv'⟩

theorem hasPoint_spec {Q : Pt → Prop} (I : DInv g w h d s) (k : SizeOk w h) (G : GeoOK g w h Q) (hQ : ∀ q ∈ s, Q q) {p : Pt}
    (hp : InImg w h p) :
    hasPoint g d p = some (decide (p ∈ s)) := by
  obtain ⟨c, hc⟩ := G.cell p hp
  unfold hasPoint
  simp only [hc, Option.bind_eq_bind, Option.bind_some]
  obtain ⟨b, h1, h2⟩ := hasPointLoop_spec d p (d.cells c.1 c.2) (by
    intro i hi
    obtain ⟨t, ht, hf, _⟩ := (I.slots.cell_iff _ _ i).mp hi
    exact ⟨t, ht, hf⟩)
  rw [h1]
  have : b = true ↔ p ∈ s := by
    rw [h2]
    constructor
    · rintro ⟨i, hi, t, ht, hv⟩
      obtain ⟨t', ht', hf, _⟩ := (I.slots.cell_iff _ _ i).mp hi
      rw [ht] at ht'; cases ht'
      have hl : t ∈ live d := mem_live.mpr ⟨hf, i, ht⟩
      exact ((I.vertex_iff p).mp ⟨t, hl, (isVertex_bool t p).mp hv⟩).resolve_right (inImg_not_super k hp)
    · intro hs
      obtain ⟨t, hl, hv⟩ := (I.vertex_iff p).mpr (Or.inl hs)
      obtain ⟨hf, i, ht⟩ := mem_live.mp hl
      have ok : ∀ v, (v = t.a ∨ v = t.b ∨ v = t.c) → Ok w h v := fun v hv => verts_ok I.img I.inv hl hv
      have ho := I.inv.ccw _ (List.mem_map_of_mem hl)
      have hcov := G.cover t.a t.b t.c p c (ok _ (Or.inl rfl)) (ok _ (Or.inr (Or.inl rfl)))
        (ok _ (Or.inr (Or.inr rfl))) hp (hQ p hs) ho
        (fun v hv => I.inv.del _ (List.mem_map_of_mem hl) v (Or.inr hv))
        (T3.pow_vertex _ ho.ne' ((isVertex_iff t p).mp hv)).le hc
      exact ⟨i, (I.slots.cell_iff _ _ i).mpr ⟨t, ht, hf, hcov⟩, t, ht, (isVertex_bool t p).mpr hv⟩
  rw [Option.some_inj, Bool.eq_iff_iff, this, decide_eq_true_iff]

end DInv

end Verif.Incr

import Verif.Vor.Inside

/-!
# The sorted corners are the Voronoi cell (exact arithmetic)
-/

namespace Verif.Vor

open Verif.Incr hiding trunc step run Entry
open Verif.Tri Verif.Spec Verif.Float

variable {w h : Nat} {s : Multiset Pt} {q : Pt} {F : FloatOps}

/-- From every location of the cell there is a corner at least as far in every direction. -/
theorem corner_beyond (k : SizeOk w h) (hq : InImg w h q) {p : P2} (hp : InCell w h s q p) {a b : ℚ} (hne : ¬ (a = 0 ∧ b = 0)) :
    ∃ o, Corner w h s q o ∧ p.x * a + p.y * b ≤ o.x * a + o.y * b := by
  obtain ⟨t, x, t0, sx, dx, c1, e1⟩ := walk k hq hp hne
  have xq : x ≠ q := by rintro rfl; simp at dx
  obtain ⟨c, d, hcd, horth, hup⟩ : ∃ c d : ℚ, ¬ (c = 0 ∧ d = 0) ∧ ((x.x : ℚ) - q.x) * c + ((x.y : ℚ) - q.y) * d = 0 ∧ 0 ≤ c * a + d * b := by
    have hx0 : ¬ ((x.x : ℚ) - q.x = 0 ∧ (x.y : ℚ) - q.y = 0) := by
      rintro ⟨h1, h2⟩
      rw [h1, h2] at dx
      simp at dx
    rcases le_total 0 (-((x.y : ℚ) - q.y) * a + ((x.x : ℚ) - q.x) * b) with hs | hs
    · exact ⟨-((x.y : ℚ) - q.y), (x.x : ℚ) - q.x, fun ⟨h1, h2⟩ => hx0 ⟨h2, by linarith⟩, by ring, hs⟩
    · exact ⟨(x.y : ℚ) - q.y, -((x.x : ℚ) - q.x), fun ⟨h1, h2⟩ => hx0 ⟨by linarith, h1⟩, by ring, by linarith⟩
  obtain ⟨t', x', t0', sx', dx', c2, e2⟩ := walk k hq c1 hcd
  have xq' : x' ≠ q := by rintro rfl; simp at dx'
  have xx' : x ≠ x' := by rintro rfl; linarith
  refine ⟨_, ⟨⟨x, x', sx, sx', xq, xq', xx', ?_, e2⟩, c2⟩, ?_⟩
  · simp only [d2] at e1 ⊢
    linear_combination e1 - 2 * t' * horth
  · simp only
    have : 0 ≤ t * (a ^ 2 + b ^ 2) := by positivity
    have : 0 ≤ t' * (c * a + d * b) := by positivity
    linarith

/-! ### No element between consecutive elements -/

theorem not_between_before {a b c : ℚ × ℚ} (hab : Ord a b) (hca : Ord c a) (h1 : 0 < cr a c) (h2 : 0 < cr c b) (h0 : 0 < cr a b) : False := by
  unfold Ord at hca hab
  unfold cr at *
  rcases hca with ⟨c1, a1⟩ | ⟨_, _, h⟩ | ⟨_, _, _, h⟩ | ⟨e1, e2, _⟩ | ⟨e1, e2, _⟩
  · have b1 : 0 ≤ b.1 := by rcases hab with ⟨h, _⟩ | ⟨h, _⟩ | ⟨_, h, _⟩ | ⟨h, _⟩ | ⟨h, _⟩ <;> linarith
    have e : (a.1 * b.2 - a.2 * b.1) * c.1 = (a.1 * c.2 - a.2 * c.1) * b.1 + (c.1 * b.2 - c.2 * b.1) * a.1 := by ring
    have := mul_nonneg h1.le b1
    have := mul_nonneg h2.le a1
    have := mul_neg_of_pos_of_neg h0 c1
    linarith
  · linarith
  · linarith
  · rw [e1, e2] at h1; linarith
  · rw [e1, e2] at h1; linarith

theorem not_between_after {a b c : ℚ × ℚ} (hab : Ord a b) (hbc : Ord b c) (h1 : 0 < cr a c) (h2 : 0 < cr c b) (h0 : 0 < cr a b) : False := by
  unfold Ord at hbc hab
  unfold cr at *
  rcases hbc with ⟨b1, c1⟩ | ⟨_, _, h⟩ | ⟨_, _, _, h⟩ | ⟨e1, e2, _⟩ | ⟨e1, e2, _⟩
  · have a1 : a.1 < 0 := by rcases hab with ⟨h, _⟩ | ⟨h, _⟩ | ⟨_, h, _⟩ | ⟨h, _⟩ | ⟨h, _⟩ <;> linarith
    have e : (a.1 * b.2 - a.2 * b.1) * c.1 = (a.1 * c.2 - a.2 * c.1) * b.1 + (c.1 * b.2 - c.2 * b.1) * a.1 := by ring
    have := mul_neg_of_pos_of_neg h1 b1
    have := mul_neg_of_pos_of_neg h2 a1
    have := mul_nonneg h0.le c1
    linarith
  · linarith
  · linarith
  · rw [e1, e2] at h2; linarith
  · rw [e1, e2] at h2; linarith

theorem not_between_wrap {a b c : ℚ × ℚ} (hbc : Ord b c) (hca : Ord c a) (h1 : 0 < cr a c) (h2 : 0 < cr c b) : False := by
  unfold Ord at hbc hca
  unfold cr at *
  rcases hca with ⟨c1, a1⟩ | ⟨_, _, h⟩ | ⟨_, _, _, h⟩ | ⟨e1, e2, _⟩ | ⟨e1, e2, _⟩
  · rcases hbc with ⟨_, h⟩ | ⟨_, _, h⟩ | ⟨_, h, _⟩ | ⟨h, _⟩ | ⟨h, _⟩ <;> linarith
  · linarith
  · linarith
  · rw [e1, e2] at h1; linarith
  · rw [e1, e2] at h1; linarith

/-- No element of a sorted list is strictly between an element and its successor. -/
theorem sorted_gap {l : List (ℚ × ℚ)} (hs : l.Pairwise Ord) {e : (ℚ × ℚ) × (ℚ × ℚ)} (he : e ∈ pairs l) (h0 : 0 < cr e.1 e.2) :
    ∀ c ∈ l, ¬ (0 < cr e.1 c ∧ 0 < cr c e.2) := by
  rintro c hc ⟨h1, h2⟩
  obtain ⟨i, hi, rfl⟩ := index_pairs he
  simp only at h0 h1 h2
  obtain ⟨j, hj, rfl⟩ := List.mem_iff_getElem.mp hc
  have S := List.pairwise_iff_getElem.mp hs
  by_cases hji : j = i
  · subst hji; unfold cr at h1; linarith
  by_cases hw : i + 1 < l.length
  · simp only [Nat.mod_eq_of_lt hw] at h0 h2
    by_cases hj1 : j = i + 1
    · subst hj1; unfold cr at h2; linarith
    rcases Nat.lt_or_gt_of_ne hji with hlt | hgt
    · exact not_between_before (S i (i + 1) hi hw (by omega)) (S j i hj hi hlt) h1 h2 h0
    · exact not_between_after (S i (i + 1) hi hw (by omega)) (S (i + 1) j hw hj (by omega)) h1 h2 h0
  · have e : i + 1 = l.length := by omega
    simp only [e, Nat.mod_self] at h0 h2
    by_cases hj0 : j = 0
    · subst hj0; unfold cr at h2; linarith
    · exact not_between_wrap (S 0 j (by omega) hj (by omega)) (S j i hj hi (by omega)) h1 h2

/-! ### Corners are extreme -/

/-- The part of the distance difference that is linear. -/
theorem d2_lin (p : P2) (x : Pt) : d2 p x - d2 p q = (((x.x : ℚ) - q.x) ^ 2 + ((x.y : ℚ) - q.y) ^ 2) -
    2 * ((p.x - q.x) * ((x.x : ℚ) - q.x) + (p.y - q.y) * ((x.y : ℚ) - q.y)) := by unfold d2; ring

/-- A corner is not a combination of two locations of the cell and the point itself with a positive part of the point. -/
theorem corner_extreme {a b o : P2} (ho : Corner w h s q o) (ha : InCell w h s q a) (hb : InCell w h s q b) {α β γ D : ℚ} (hα : 0 ≤ α)
    (hβ : 0 ≤ β) (hγ : 0 < γ) (hD : γ + α + β = D) (ex : D * (o.x - q.x) = α * (a.x - q.x) + β * (b.x - q.x))
    (ey : D * (o.y - q.y) = α * (a.y - q.y) + β * (b.y - q.y)) : False := by
  obtain ⟨⟨u, _, su, -, n1, -, -, e1, -⟩, -⟩ := ho
  have g1 := sub_nonneg.mpr (ha u su)
  have g2 := sub_nonneg.mpr (hb u su)
  rw [d2_lin] at g1 g2
  have g0 := sub_eq_zero.mpr e1
  rw [d2_lin] at g0
  have pos : 0 < ((u.x : ℚ) - q.x) ^ 2 + ((u.y : ℚ) - q.y) ^ 2 := by
    have : (u.x : ℚ) - q.x ≠ 0 ∨ (u.y : ℚ) - q.y ≠ 0 := by
      by_contra hn
      push Not at hn
      exact n1 (Pt.ext (by exact_mod_cast sub_eq_zero.mp hn.1) (by exact_mod_cast sub_eq_zero.mp hn.2))
    rcases this with k | k <;> positivity
  have p1 := mul_nonneg hα g1
  have p2 := mul_nonneg hβ g2
  have p3 := mul_pos hγ pos
  have : D * ((((u.x : ℚ) - q.x) ^ 2 + ((u.y : ℚ) - q.y) ^ 2) -
    2 * ((o.x - q.x) * ((u.x : ℚ) - q.x) + (o.y - q.y) * ((u.y : ℚ) - q.y))) = 0 := by rw [g0, mul_zero]
  rw [← hD] at this ex ey
  have e : (γ + α + β) * ((((u.x : ℚ) - q.x) ^ 2 + ((u.y : ℚ) - q.y) ^ 2) -
    2 * ((o.x - q.x) * ((u.x : ℚ) - q.x) + (o.y - q.y) * ((u.y : ℚ) - q.y))) =
      γ * (((u.x : ℚ) - q.x) ^ 2 + ((u.y : ℚ) - q.y) ^ 2) +
      α * ((((u.x : ℚ) - q.x) ^ 2 + ((u.y : ℚ) - q.y) ^ 2) - 2 * ((a.x - q.x) * ((u.x : ℚ) - q.x) + (a.y - q.y) * ((u.y : ℚ) - q.y))) +
      β * ((((u.x : ℚ) - q.x) ^ 2 + ((u.y : ℚ) - q.y) ^ 2) - 2 * ((b.x - q.x) * ((u.x : ℚ) - q.x) + (b.y - q.y) * ((u.y : ℚ) - q.y))) := by
    linear_combination (-2 * ((u.x : ℚ) - q.x)) * ex + (-2 * ((u.y : ℚ) - q.y)) * ey
  linarith

/-- A corner is not strictly between two locations of the cell. -/
theorem corner_between {a b o : P2} (ho : Corner w h s q o) (ha : InCell w h s q a) (hb : InCell w h s q b) {α β D : ℚ} (hα : 0 < α)
    (hβ : 0 < β) (hD : α + β = D) (ex : D * (o.x - q.x) = α * (a.x - q.x) + β * (b.x - q.x))
    (ey : D * (o.y - q.y) = α * (a.y - q.y) + β * (b.y - q.y)) : a = b := by
  obtain ⟨⟨u, v, su, sv, n1, n2, n3, e1, e2⟩, -⟩ := ho
  have on : ∀ x : Pt, Site w h s x → d2 o x = d2 o q → d2 a x - d2 a q = 0 ∧ d2 b x - d2 b q = 0 := by
    intro x sx ex'
    have g1 := sub_nonneg.mpr (ha x sx)
    have g2 := sub_nonneg.mpr (hb x sx)
    have g0 := sub_eq_zero.mpr ex'
    have e : (α + β) * (d2 o x - d2 o q) = α * (d2 a x - d2 a q) + β * (d2 b x - d2 b q) := by
      rw [d2_lin, d2_lin, d2_lin]
      rw [← hD] at ex ey
      linear_combination (-2 * ((x.x : ℚ) - q.x)) * ex + (-2 * ((x.y : ℚ) - q.y)) * ey
    rw [g0, mul_zero] at e
    have p1 := mul_nonneg hα.le g1
    have p2 := mul_nonneg hβ.le g2
    exact ⟨(mul_eq_zero.mp (by linarith : α * (d2 a x - d2 a q) = 0)).resolve_left hα.ne',
      (mul_eq_zero.mp (by linarith : β * (d2 b x - d2 b q) = 0)).resolve_left hβ.ne'⟩
  obtain ⟨u1, u2⟩ := on u su e1
  obtain ⟨v1, v2⟩ := on v sv e2
  rw [d2_lin] at u1 u2 v1 v2
  have nc := circle_noncollinear n1 n2 n3 e1 e2
  unfold ori toP at nc
  simp only at nc
  set x1 : ℚ := u.x - q.x with hx1
  set y1 : ℚ := u.y - q.y with hy1
  set x2 : ℚ := v.x - q.x with hx2
  set y2 : ℚ := v.y - q.y with hy2
  have d1 : (a.x - b.x) * x1 + (a.y - b.y) * y1 = 0 := by linarith
  have d2' : (a.x - b.x) * x2 + (a.y - b.y) * y2 = 0 := by linarith
  have zx : (x1 * y2 - y1 * x2) * (a.x - b.x) = 0 := by linear_combination y2 * d1 - y1 * d2'
  have zy : (x1 * y2 - y1 * x2) * (a.y - b.y) = 0 := by linear_combination x1 * d2' - x2 * d1
  have nc' : x1 * y2 - y1 * x2 ≠ 0 := nc
  exact P2.ext (sub_eq_zero.mp ((mul_eq_zero.mp zx).resolve_left nc')) (sub_eq_zero.mp ((mul_eq_zero.mp zy).resolve_left nc'))

/-! ### The polygon of the corners -/

theorem corners_ord (E : Exact F) {pts : List FP} (hs : pts.Pairwise (fun a b => cmp F ((q.x : ℚ), (q.y : ℚ)) a b = some true)) :
    (pts.map (off q)).Pairwise Ord := by
  have hr : Rnd 53 F.r64 := by
    have : F.r64 = fun x => x := funext E.1
    rw [this]; exact id_rnd 53
  rw [List.pairwise_map]
  refine hs.imp ?_
  intro a b hab
  have := cmp_true hr hab
  unfold Bef dx dy at this
  simp only [E.1] at this
  unfold Ord off
  rcases this with h | h | h | ⟨h1, h2, h3, h4⟩ | ⟨h1, h2, h3, h4, h5⟩
  · exact Or.inl h
  · exact Or.inr (Or.inl h)
  · exact Or.inr (Or.inr (Or.inl h))
  · exact Or.inr (Or.inr (Or.inr (Or.inl ⟨h1, h2, h3, by simpa using h4⟩)))
  · exact Or.inr (Or.inr (Or.inr (Or.inr ⟨h1, h2, h3, h4, by simpa using h5⟩)))

/-- All other corners are strictly to the left of an edge. -/
theorem corners_left (E : Exact F) (k : SizeOk w h) (hq : InImg w h q) {cs pts : List FP} (hl : ListsCorners F w h s q cs)
    (hp : pts.Perm cs) (hs : pts.Pairwise (fun a b => cmp F ((q.x : ℚ), (q.y : ℚ)) a b = some true)) :
    ∀ e ∈ pairs pts, ∀ c ∈ pts, c ≠ e.1 → c ≠ e.2 → 0 < area e.1 e.2 c := by
  rintro ⟨a, b⟩ he c hc ca cb
  simp only at ca cb ⊢
  have turn := corners_turn E k hq hl hp hs _ he
  simp only at turn
  have hmem : ∀ c ∈ pts, Corner w h s q ⟨c.1, c.2⟩ := fun c hc => corner_cell E hl (hp.mem_iff.mp hc)
  have ka := hmem a (mem_of_pairs he).1
  have kb := hmem b (mem_of_pairs he).2
  have kc := hmem c hc
  have gap := sorted_gap (corners_ord E hs) (e := (off q a, off q b)) (by
    obtain ⟨i, hi, h'⟩ := index_pairs he
    have := pairs_index (pts.map (off q)) i (by simpa using hi)
    cases h'
    simpa using this) turn (off q c) (List.mem_map_of_mem hc)
  obtain ⟨ab, hab⟩ : ∃ x, x = cr (off q a) (off q b) := ⟨_, rfl⟩
  obtain ⟨ac, hac⟩ : ∃ x, x = cr (off q a) (off q c) := ⟨_, rfl⟩
  obtain ⟨bc, hbc⟩ : ∃ x, x = cr (off q b) (off q c) := ⟨_, rfl⟩
  have turn' : 0 < ab := by rw [hab]; exact turn
  have gap' : ¬ (0 < ac ∧ bc < 0) := by
    rintro ⟨g1, g2⟩
    refine gap ⟨by rw [← hac]; exact g1, ?_⟩
    have : cr (off q c) (off q b) = - bc := by rw [hbc]; unfold cr; ring
    rw [this]; linarith
  have harea : area a b c = ab + bc - ac := by rw [hab, hbc, hac]; unfold area cr off; ring
  rw [harea]
  by_contra hle
  push Not at hle
  by_cases h1 : 0 < ac
  · have h2 : 0 ≤ bc := by
      by_contra h; push Not at h; exact gap' ⟨h1, h⟩
    have ex : ac * (b.1 - q.x) = bc * (a.1 - q.x) + ab * (c.1 - q.x) := by rw [hac, hbc, hab]; unfold cr off; ring
    have ey : ac * (b.2 - q.y) = bc * (a.2 - q.y) + ab * (c.2 - q.y) := by rw [hac, hbc, hab]; unfold cr off; ring
    rcases hle.lt_or_eq with hlt | heq
    · exact corner_extreme kb ka.2 kc.2 (α := bc) (β := ab) (γ := ac - ab - bc) (D := ac) h2 turn'.le (by linarith) (by ring) ex ey
    · rcases h2.lt_or_eq with h2 | h2
      · have := corner_between kb ka.2 kc.2 (α := bc) (β := ab) (D := ac) h2 turn' (by linarith) ex ey
        injection this with e1 e2
        exact ca (Prod.ext e1.symm e2.symm)
      · rw [← h2] at ex ey heq
        have : ac = ab := by linarith
        rw [this] at ex ey
        refine cb (Prod.ext ?_ ?_)
        · have := mul_left_cancel₀ turn'.ne' (ex.trans (by ring : _ = ab * (c.1 - q.x)))
          linarith
        · have := mul_left_cancel₀ turn'.ne' (ey.trans (by ring : _ = ab * (c.2 - q.y)))
          linarith
  · push Not at h1
    by_cases h2 : bc < 0
    · have ex : (-bc) * (a.1 - q.x) = (-ac) * (b.1 - q.x) + ab * (c.1 - q.x) := by rw [hac, hbc, hab]; unfold cr off; ring
      have ey : (-bc) * (a.2 - q.y) = (-ac) * (b.2 - q.y) + ab * (c.2 - q.y) := by rw [hac, hbc, hab]; unfold cr off; ring
      rcases hle.lt_or_eq with hlt | heq
      · exact corner_extreme ka kb.2 kc.2 (α := -ac) (β := ab) (γ := -bc + ac - ab) (D := -bc) (by linarith) turn'.le (by linarith) (by ring) ex ey
      · rcases h1.lt_or_eq with h1 | h1
        · have := corner_between ka kb.2 kc.2 (α := -ac) (β := ab) (D := -bc) (by linarith) turn' (by linarith) ex ey
          injection this with e1 e2
          exact cb (Prod.ext e1.symm e2.symm)
        · rw [h1] at ex ey heq
          have : -bc = ab := by linarith
          rw [this] at ex ey
          refine ca (Prod.ext ?_ ?_)
          · have := mul_left_cancel₀ turn'.ne' (ex.trans (by ring : _ = ab * (c.1 - q.x)))
            linarith
          · have := mul_left_cancel₀ turn'.ne' (ey.trans (by ring : _ = ab * (c.2 - q.y)))
            linarith
    · push Not at h2
      linarith

/-- The sorted corners form a convex polygon. -/
theorem corners_convex (E : Exact F) (k : SizeOk w h) (hq : InImg w h q) {cs pts : List FP} (hl : ListsCorners F w h s q cs)
    (hp : pts.Perm cs) (hs : pts.Pairwise (fun a b => cmp F ((q.x : ℚ), (q.y : ℚ)) a b = some true)) : ConvexPoly pts := by
  have turn := corners_turn E k hq hl hp hs
  have nd : pts.Nodup := hp.nodup_iff.mpr hl.1
  have h0 : pts ≠ [] := by
    obtain ⟨o, ho, -⟩ := corner_dir (s := s) k hq (a := 1) (b := 0) (by norm_num)
    exact List.ne_nil_of_mem (hp.mem_iff.mpr ((hl.2 _).mpr ⟨o, ho, rfl⟩))
  constructor
  · by_contra hlt
    push Not at hlt
    match pts, h0, hlt, turn with
    | [a], _, _, turn =>
      have := turn (a, a) (by simp [pairs])
      unfold area at this
      simp only at this
      linarith
    | [a, b], _, _, turn =>
      have t1 := turn (a, b) (by simp [pairs])
      have t2 := turn (b, a) (by simp [pairs])
      unfold area at t1 t2
      simp only at t1 t2
      linarith
  · intro i j hi hj hne hne'
    refine corners_left E k hq hl hp hs _ (pairs_index pts i hi) _ (List.getElem_mem hj) ?_ ?_
    · intro e; exact hne ((nd.getElem_inj_iff).mp e)
    · intro e; exact hne' ((nd.getElem_inj_iff).mp e)

theorem inCell_convex : Convex ℚ {r : FP | InCell w h s q ⟨r.1, r.2⟩} := by
  intro x hx y hy a b ha hb hab
  have := inCell_comb (w := w) (h := h) (s := s) (q := q) (a := ⟨x.1, x.2⟩) (b := ⟨y.1, y.2⟩) hx hy hb (by linarith)
  have e : a = 1 - b := by linarith
  subst e
  show InCell w h s q ⟨(1 - b) * x.1 + b * y.1, (1 - b) * x.2 + b * y.2⟩
  convert this using 2 <;> ring

/-- The polygon of the corners is the cell. -/
theorem corners_hull (E : Exact F) (k : SizeOk w h) (hq : InImg w h q) {cs pts : List FP} (hl : ListsCorners F w h s q cs)
    (hp : pts.Perm cs) (hs : pts.Pairwise (fun a b => cmp F ((q.x : ℚ), (q.y : ℚ)) a b = some true)) (r : FP) :
    r ∈ convexHull ℚ {a | a ∈ pts} ↔ InCell w h s q ⟨r.1, r.2⟩ := by
  have C := corners_convex E k hq hl hp hs
  have hmem : ∀ c ∈ pts, InCell w h s q ⟨c.1, c.2⟩ := fun c hc => (corner_cell E hl (hp.mem_iff.mp hc)).2
  constructor
  · intro hr
    have : convexHull ℚ {a | a ∈ pts} ⊆ {r : FP | InCell w h s q ⟨r.1, r.2⟩} := convexHull_min hmem inCell_convex
    exact this hr
  · intro hr
    rw [C.hull]
    rintro ⟨a, b⟩ he
    by_contra hlt
    push Not at hlt
    simp only at hlt
    have turn := corners_turn E k hq hl hp hs _ he
    simp only at turn
    obtain ⟨o, ho, hb⟩ := corner_beyond (p := ⟨r.1, r.2⟩) k hq hr (a := b.2 - a.2) (b := -(b.1 - a.1)) (by
      rintro ⟨h1, h2⟩
      have h2' : b.1 - a.1 = 0 := by linarith
      unfold area at hlt
      rw [h1, h2'] at hlt
      simp at hlt)
    have hm : (o.x, o.y) ∈ pts := hp.mem_iff.mpr ((hl.2 _).mpr ⟨o, ho, (stored_exact E o).symm⟩)
    have := C.nonneg _ he _ hm
    unfold area at this hlt
    simp only at this hb hlt
    linarith

/-! ### Bounding vertices are far from the image -/

/-- A location of the image is nearer to an image point than to a corner of the bounding triangle. -/
theorem super_farther_lt (k : SizeOk w h) (h4 : 4 ≤ side w h) (hq : InImg w h q) {r : P2} (r1 : 0 ≤ r.x) (r2 : r.x ≤ w) (r3 : 0 ≤ r.y)
    (r4 : r.y ≤ h) {v : Pt} (hv : IsVertex (newSuperTriangle w h) v) : d2 r q < d2 r v := by
  have nw : w ≤ side w h := le_max_left _ _
  have nh : h ≤ side w h := le_max_right _ _
  have hv' := hv
  rw [super_eq k] at hv'
  generalize side w h = n at *
  generalize ha : (w + 1) / 2 = a at *
  generalize hb : (h + 1) / 2 = b at *
  have A1 : w ≤ 2 * a := by omega
  have A2 : 2 * a ≤ w + 1 := by omega
  have B1 : h ≤ 2 * b := by omega
  have B2 : 2 * b ≤ h + 1 := by omega
  have cw : (w : ℚ) ≤ n := by exact_mod_cast nw
  have ch : (h : ℚ) ≤ n := by exact_mod_cast nh
  have c4 : (4 : ℚ) ≤ n := by exact_mod_cast h4
  have cA1 : (w : ℚ) ≤ 2 * a := by exact_mod_cast A1
  have cA2 : (2 : ℚ) * a ≤ w + 1 := by exact_mod_cast A2
  have cB1 : (h : ℚ) ≤ 2 * b := by exact_mod_cast B1
  have cB2 : (2 : ℚ) * b ≤ h + 1 := by exact_mod_cast B2
  obtain ⟨q1, q2, q3, q4⟩ := hq
  have q1' : (0 : ℚ) ≤ q.x := by exact_mod_cast q1
  have q2' : (q.x : ℚ) ≤ w := by exact_mod_cast (by omega : q.x ≤ w)
  have q3' : (0 : ℚ) ≤ q.y := by exact_mod_cast q3
  have q4' : (q.y : ℚ) ≤ h := by exact_mod_cast (by omega : q.y ≤ h)
  have near : d2 r q ≤ 2 * (n : ℚ) ^ 2 := by
    have e1 : (r.x - q.x) ^ 2 ≤ (n : ℚ) ^ 2 := sq_le_sq' (by linarith) (by linarith)
    have e2 : (r.y - q.y) ^ 2 ≤ (n : ℚ) ^ 2 := sq_le_sq' (by linarith) (by linarith)
    unfold d2; linarith
  refine near.trans_lt ?_
  have sq : ∀ x y : ℚ, 0 ≤ y → (y ≤ x ∨ x ≤ -y) → y ^ 2 ≤ x ^ 2 := by
    intro x y hy hx
    rcases hx with hx | hx
    · exact pow_le_pow_left₀ hy hx 2
    · have := pow_le_pow_left₀ hy (by linarith : y ≤ -x) 2
      rwa [neg_sq] at this
  rcases hv' with rfl | rfl | rfl
  · unfold d2
    push_cast
    have e1 := sq (r.x - (a - 2 * n)) (3 / 2 * n - 1 / 2) (by linarith) (Or.inl (by linarith))
    have e2 := sq (r.y - (b - n)) (1 / 2 * n - 1 / 2) (by linarith) (Or.inl (by linarith))
    nlinarith
  · unfold d2
    push_cast
    have e2 := sq (r.y - (b + 2 * n)) (3 / 2 * n) (by linarith) (Or.inr (by linarith))
    have e1 := sq_nonneg (r.x - a)
    nlinarith
  · unfold d2
    push_cast
    have e1 := sq (r.x - (a + 2 * n)) (3 / 2 * n - 1 / 2) (by linarith) (Or.inr (by linarith))
    have e2 := sq (r.y - (b - n)) (1 / 2 * n - 1 / 2) (by linarith) (Or.inl (by linarith))
    nlinarith

theorem super_farther (k : SizeOk w h) (h4 : 4 ≤ side w h) (hq : InImg w h q) {r : P2} (r1 : 0 ≤ r.x) (r2 : r.x ≤ w) (r3 : 0 ≤ r.y)
    (r4 : r.y ≤ h) {v : Pt} (hv : IsVertex (newSuperTriangle w h) v) : d2 r q ≤ d2 r v :=
  (super_farther_lt k h4 hq r1 r2 r3 r4 hv).le

end Verif.Vor

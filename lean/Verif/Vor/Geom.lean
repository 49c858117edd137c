import Verif.Vor.Sort
import Mathlib.Analysis.Convex.Combination

/-!
# Segment intersection and point in polygon
-/

namespace Verif.Vor

open Verif.Incr hiding Entry
open Verif.Float Verif.Spec
open Verif.Tri (P2)

variable {F : FloatOps}

/-! ### Segments -/

theorem segments_iff (h64 : ∀ x, F.r64 x = x) {p0 p1 p2 p3 : FP} (hn : (p1.1 - p0.1) * (p3.2 - p2.2) - (p1.2 - p0.2) * (p3.1 - p2.1) ≠ 0)
    (q : FP) : segmentsIntersect F p0 p1 p2 p3 = some q ↔
      OnSeg p0 p1 q ∧ OnSeg p2 p3 q := by
  unfold segmentsIntersect OnSeg
  simp only [h64]
  set a := p1.1 - p0.1 with ha
  set b := p1.2 - p0.2 with hb
  set c := p3.1 - p2.1 with hc
  set d := p3.2 - p2.2 with hd
  have hden : -c * b + a * d ≠ 0 := by intro e; exact hn (by linarith)
  rw [if_neg hden]
  set s := (-b * (p0.1 - p2.1) + a * (p0.2 - p2.2)) / (-c * b + a * d) with hs
  set t := (c * (p0.2 - p2.2) - d * (p0.1 - p2.1)) / (-c * b + a * d) with ht
  have es : s * (-c * b + a * d) = -b * (p0.1 - p2.1) + a * (p0.2 - p2.2) := by rw [hs]; exact div_mul_cancel₀ _ hden
  have et : t * (-c * b + a * d) = c * (p0.2 - p2.2) - d * (p0.1 - p2.1) := by rw [ht]; exact div_mul_cancel₀ _ hden
  constructor
  · intro h
    split_ifs at h with hb'
    obtain ⟨s0, s1, t0, t1⟩ := hb'
    cases h
    refine ⟨⟨t, t0, t1, rfl⟩, s, s0, s1, ?_⟩
    refine Prod.ext ?_ ?_
    · refine mul_right_cancel₀ hden ?_
      show (p0.1 + t * a) * (-c * b + a * d) = (p2.1 + s * c) * (-c * b + a * d)
      linear_combination a * et - c * es
    · refine mul_right_cancel₀ hden ?_
      show (p0.2 + t * b) * (-c * b + a * d) = (p2.2 + s * d) * (-c * b + a * d)
      linear_combination b * et - d * es
  · rintro ⟨⟨t', t0, t1, rfl⟩, s', s0, s1, e⟩
    have e1 : p0.1 + t' * a = p2.1 + s' * c := congrArg Prod.fst e
    have e2 : p0.2 + t' * b = p2.2 + s' * d := congrArg Prod.snd e
    have ht' : t = t' := by
      refine mul_right_cancel₀ hden ?_
      rw [et]
      linear_combination d * (-e1) + c * e2
    have hs' : s = s' := by
      refine mul_right_cancel₀ hden ?_
      rw [es]
      linear_combination (-b) * e1 + a * e2
    rw [ht', hs', if_pos ⟨s0, s1, t0, t1⟩]

/-! ### Polygons -/

theorem ppi_pos (q : FP) : ∀ (es : List (FP × FP)) (pos neg : Nat), (∀ e ∈ es, e.1 ≠ q) → (pos = 0 ∨ neg = 0) →
    (ppiLoop F q es pos neg = true ↔ ¬ ((0 < pos ∨ ∃ e ∈ es, 0 < crossD F q e) ∧ (0 < neg ∨ ∃ e ∈ es, crossD F q e < 0)))
  | [], pos, neg, _, h0 => by
    simp only [ppiLoop, List.not_mem_nil, false_and, exists_false, or_false, true_iff]
    omega
  | e :: es, pos, neg, hv, h0 => by
    rw [ppiLoop, if_neg (hv e (by simp))]
    simp only
    have ih := fun p n h0 => ppi_pos q es p n (fun e he => hv e (by simp [he])) h0
    simp only [List.exists_mem_cons_iff]
    rcases lt_trichotomy (crossD F q e) 0 with h | h | h
    · have hn : ¬ crossD F q e > 0 := not_lt.mpr h.le
      simp only [hn, h, if_true, if_false]
      by_cases hp : pos > 0
      · rw [if_pos (by omega)]
        simp [hp]
      · rw [if_neg (by omega), ih _ _ (by omega)]
        simp [hn]
    · have h1 : ¬ crossD F q e > 0 := by rw [h]; exact lt_irrefl _
      have h2 : ¬ crossD F q e < 0 := by rw [h]; exact lt_irrefl _
      simp only [h1, h2, if_false]
      rw [if_neg (by omega), ih _ _ h0]
      simp [h]
    · have hn : ¬ crossD F q e < 0 := not_lt.mpr h.le
      have h' : crossD F q e > 0 := h
      simp only [hn, h', if_true, if_false]
      by_cases hp : neg > 0
      · rw [if_pos (by omega)]
        simp [hp, h]
      · rw [if_neg (by omega), ih _ _ (by omega)]
        simp [hn, h]

theorem ppi_accept_of (q : FP) : ∀ (es : List (FP × FP)) (pos neg : Nat), (pos = 0 ∨ neg = 0) →
    ¬ ((0 < pos ∨ ∃ e ∈ es, 0 < crossD F q e) ∧ (0 < neg ∨ ∃ e ∈ es, crossD F q e < 0)) → ppiLoop F q es pos neg = true
  | [], _, _, _, _ => rfl
  | e :: es, pos, neg, h0, h => by
    rw [ppiLoop]
    by_cases hv : e.1 = q
    · rw [if_pos hv]
    · rw [if_neg hv]
      simp only
      simp only [List.exists_mem_cons_iff] at h
      rw [if_neg]
      · refine ppi_accept_of q es _ _ ?_ ?_
        · split_ifs with h1 h2 <;> first | omega | (exfalso; linarith) | skip
          · by_contra hc
            exact h ⟨Or.inr (Or.inl h1), Or.inl (by omega)⟩
          · by_contra hc
            rename_i h2
            exact h ⟨Or.inl (by omega), Or.inr (Or.inl h2)⟩
        · rintro ⟨h1, h2⟩
          refine h ⟨?_, ?_⟩
          · rcases h1 with h1 | h1
            · split_ifs at h1 with hx
              · exact Or.inr (Or.inl hx)
              · exact Or.inl h1
            · exact Or.inr (Or.inr h1)
          · rcases h2 with h2 | h2
            · split_ifs at h2 with hx
              · exact Or.inr (Or.inl hx)
              · exact Or.inl h2
            · exact Or.inr (Or.inr h2)
      · rintro ⟨h1, h2⟩
        refine h ⟨?_, ?_⟩
        · split_ifs at h1 with hx
          · exact Or.inr (Or.inl hx)
          · exact Or.inl h1
        · split_ifs at h2 with hx
          · exact Or.inr (Or.inl hx)
          · exact Or.inl h2

theorem ppi_vertex_or (q : FP) {poly : List FP} (h : polygonPointIntersect F poly q = true) :
    q ∈ poly ∨ ¬ ((∃ e ∈ pairs poly, 0 < crossD F q e) ∧ ∃ e ∈ pairs poly, crossD F q e < 0) := by
  by_cases hq : q ∈ poly
  · exact Or.inl hq
  · right
    have := (ppi_pos (F := F) q (pairs poly) 0 0 (by
      rintro ⟨a, b⟩ he rfl
      exact hq (List.of_mem_zip he).1) (Or.inl rfl)).mp h
    simpa using this

theorem ppi_of (q : FP) {poly : List FP} (h : ¬ ((∃ e ∈ pairs poly, 0 < crossD F q e) ∧ ∃ e ∈ pairs poly, crossD F q e < 0)) :
    polygonPointIntersect F poly q = true :=
  ppi_accept_of q (pairs poly) 0 0 (Or.inl rfl) (by simpa using h)

/-! ### The sum over the edges -/

theorem crossD_area (h64 : ∀ x, F.r64 x = x) (q : FP) (e : FP × FP) : crossD F q e = - area e.1 e.2 q := by
  unfold crossD area
  simp only [h64]
  ring

theorem pairs_fst {α : Type} (l : List α) : (pairs l).map Prod.fst = l := by
  unfold pairs
  rw [List.map_fst_zip]
  simp

theorem pairs_snd {α : Type} (l : List α) : (pairs l).map Prod.snd = l.rotate 1 := by
  unfold pairs
  rw [List.map_snd_zip]
  simp

theorem mem_of_pairs {α : Type} {l : List α} {e : α × α} (h : e ∈ pairs l) : e.1 ∈ l ∧ e.2 ∈ l := by
  refine ⟨by rw [← pairs_fst l]; exact List.mem_map_of_mem h, ?_⟩
  have : e.2 ∈ l.rotate 1 := by rw [← pairs_snd l]; exact List.mem_map_of_mem h
  exact List.mem_rotate.mp this

theorem sum_pairs {α : Type} (l : List α) (f : α → ℚ) : ((pairs l).map fun e => f e.2 - f e.1).sum = 0 := by
  have h1 : ((pairs l).map fun e => f e.2).sum = (l.map f).sum := by
    have : ((pairs l).map fun e => f e.2) = ((pairs l).map Prod.snd).map f := by rw [List.map_map]; rfl
    rw [this, pairs_snd]
    exact ((List.rotate_perm l 1).map f).sum_eq
  have h2 : ((pairs l).map fun e => f e.1).sum = (l.map f).sum := by
    have : ((pairs l).map fun e => f e.1) = ((pairs l).map Prod.fst).map f := by rw [List.map_map]; rfl
    rw [this, pairs_fst]
  have : ∀ es : List (α × α), (es.map fun e => f e.2 - f e.1).sum = (es.map fun e => f e.2).sum - (es.map fun e => f e.1).sum := by
    intro es
    induction es with
    | nil => simp
    | cons e es ih => simp only [List.map_cons, List.sum_cons, ih]; ring
  rw [this, h1, h2, sub_self]

/-- The sum of the signed areas does not depend on the point. -/
theorem sum_area (l : List FP) (q r : FP) : ((pairs l).map fun e => area e.1 e.2 q).sum = ((pairs l).map fun e => area e.1 e.2 r).sum := by
  have h := sum_pairs l (fun a => a.1 * (q.2 - r.2) - a.2 * (q.1 - r.1))
  have : ∀ es : List (FP × FP), (es.map fun e => area e.1 e.2 q).sum = (es.map fun e => area e.1 e.2 r).sum +
      (es.map fun e => (e.2.1 * (q.2 - r.2) - e.2.2 * (q.1 - r.1)) - (e.1.1 * (q.2 - r.2) - e.1.2 * (q.1 - r.1))).sum := by
    intro es
    induction es with
    | nil => simp
    | cons e es ih => simp only [List.map_cons, List.sum_cons, ih]; unfold area; ring
  rw [this, h, add_zero]

theorem sum_pos_exists {α : Type} (l : List α) (f : α → ℚ) (h : 0 < (l.map f).sum) : ∃ a ∈ l, 0 < f a := by
  by_contra hn
  push Not at hn
  have : ∀ l : List α, (∀ a ∈ l, f a ≤ 0) → (l.map f).sum ≤ 0 := by
    intro l
    induction l with
    | nil => simp
    | cons a l ih =>
      intro hl
      rw [List.map_cons, List.sum_cons]
      have := ih fun b hb => hl b (by simp [hb])
      have := hl a (by simp)
      linarith
  linarith [this l hn]

/-- An accepted point that is not a vertex of a polygon with positive area has all edges to its right or through it. -/
theorem accept_left (h64 : ∀ x, F.r64 x = x) {poly : List FP} {q r : FP} (hpos : 0 < ((pairs poly).map fun e => area e.1 e.2 r).sum)
    (h : ¬ ((∃ e ∈ pairs poly, 0 < crossD F q e) ∧ ∃ e ∈ pairs poly, crossD F q e < 0)) : ∀ e ∈ pairs poly, 0 ≤ area e.1 e.2 q := by
  rw [← sum_area poly q r] at hpos
  obtain ⟨e0, he0, h0⟩ := sum_pos_exists _ _ hpos
  intro e he
  by_contra hlt
  push Not at hlt
  exact h ⟨⟨e, he, by rw [crossD_area h64]; linarith⟩, ⟨e0, he0, by rw [crossD_area h64]; linarith⟩⟩

/-! ### Cyclic lists -/

theorem pairs_index {α : Type} (l : List α) (i : Nat) (hi : i < l.length) :
    (l[i], l[(i + 1) % l.length]'(Nat.mod_lt _ (by omega))) ∈ pairs l := by
  unfold pairs
  rw [List.mem_iff_getElem]
  refine ⟨i, by simp [hi], ?_⟩
  rw [List.getElem_zip, List.getElem_rotate]

theorem index_pairs {α : Type} {l : List α} {e : α × α} (he : e ∈ pairs l) :
    ∃ (i : Nat) (hi : i < l.length), e = (l[i], l[(i + 1) % l.length]'(Nat.mod_lt _ (by omega))) := by
  unfold pairs at he
  obtain ⟨i, hi, rfl⟩ := List.mem_iff_getElem.mp he
  refine ⟨i, by simpa using hi, ?_⟩
  rw [List.getElem_zip, List.getElem_rotate]

/-- A property that is passed on from every element to its successor holds for all elements if it holds for one. -/
theorem cyclic_all {α : Type} {l : List α} {P : α → Prop} (h : ∀ e ∈ pairs l, P e.1 → P e.2) {a : α} (ha : a ∈ l) (hp : P a) :
    ∀ b ∈ l, P b := by
  obtain ⟨i, hi, rfl⟩ := List.mem_iff_getElem.mp ha
  have key : ∀ k, P (l[(i + k) % l.length]'(Nat.mod_lt _ (by omega))) := by
    intro k
    induction k with
    | zero => simpa [Nat.mod_eq_of_lt hi] using hp
    | succ k ih =>
      have := h _ (pairs_index l ((i + k) % l.length) (Nat.mod_lt _ (by omega))) ih
      have e : ((i + k) % l.length + 1) % l.length = (i + (k + 1)) % l.length := by rw [Nat.mod_add_mod, Nat.add_assoc]
      simpa [e] using this
  intro b hb
  obtain ⟨j, hj, rfl⟩ := List.mem_iff_getElem.mp hb
  have := key (l.length - i + j)
  have e : (i + (l.length - i + j)) % l.length = j := by
    rw [show i + (l.length - i + j) = j + l.length by omega, Nat.add_mod_right, Nat.mod_eq_of_lt hj]
  simpa [e] using this

/-! ### Convex polygons -/

theorem _root_.Verif.Spec.ConvexPoly.nonneg {l : List FP} (h : ConvexPoly l) : ∀ e ∈ pairs l, ∀ q ∈ l, 0 ≤ area e.1 e.2 q := by
  intro e he q hq
  obtain ⟨i, hi, rfl⟩ := index_pairs he
  obtain ⟨j, hj, rfl⟩ := List.mem_iff_getElem.mp hq
  by_cases h1 : j = i
  · subst h1; unfold area; simp
  · by_cases h2 : j = (i + 1) % l.length
    · subst h2
      apply le_of_eq
      unfold area; ring
    · exact (h.2 i j hi hj h1 h2).le

theorem _root_.Verif.Spec.ConvexPoly.sum {l : List FP} (h : ConvexPoly l) : ∃ r, 0 < ((pairs l).map fun e => area e.1 e.2 r).sum := by
  have h3 := h.1
  refine ⟨l[0], ?_⟩
  have hm : area l[1] (l[(1 + 1) % l.length]'(Nat.mod_lt _ (by omega))) l[0] ∈ (pairs l).map fun e => area e.1 e.2 l[0] :=
    List.mem_map_of_mem (f := fun e : FP × FP => area e.1 e.2 l[0]) (pairs_index l 1 (by omega))
  have hp := h.2 1 0 (by omega) (by omega) (by omega) (by rw [Nat.mod_eq_of_lt (by omega)]; omega)
  refine lt_of_lt_of_le hp (List.single_le_sum ?_ _ hm)
  intro x hx
  obtain ⟨e, he, rfl⟩ := List.mem_map.mp hx
  exact h.nonneg e he _ (List.getElem_mem _)

theorem mem_hull3 {S : Set FP} {a b c q : FP} (ha : a ∈ S) (hb : b ∈ S) (hc : c ∈ S) (h : 0 < area a b c) (h1 : 0 ≤ area a b q)
    (h2 : 0 ≤ area b c q) (h3 : 0 ≤ area c a q) : q ∈ convexHull ℚ S := by
  have hs : area a b q + area b c q + area c a q = area a b c := by unfold area; ring
  have e : q = (area b c q / area a b c) • a + (area c a q / area a b c) • b + (area a b q / area a b c) • c := by
    refine Prod.ext ?_ ?_
    · simp only [Prod.fst_add, Prod.smul_fst, smul_eq_mul]
      field_simp
      unfold area; ring
    · simp only [Prod.snd_add, Prod.smul_snd, smul_eq_mul]
      field_simp
      unfold area; ring
  rw [e]
  have := (convex_convexHull ℚ S).sum_mem (t := Finset.univ) (w := ![area b c q / area a b c, area c a q / area a b c, area a b q / area a b c])
    (z := ![a, b, c]) (by
      intro i _
      fin_cases i
      · exact div_nonneg h2 h.le
      · exact div_nonneg h3 h.le
      · exact div_nonneg h1 h.le) (by
      rw [Fin.sum_univ_three]
      show area b c q / area a b c + area c a q / area a b c + area a b q / area a b c = 1
      rw [← add_div, ← add_div, div_eq_one_iff_eq h.ne']
      linarith) (by
      intro i _
      fin_cases i
      · exact subset_convexHull ℚ S ha
      · exact subset_convexHull ℚ S hb
      · exact subset_convexHull ℚ S hc)
  rw [Fin.sum_univ_three] at this
  exact this

theorem halfplane_convex (a b : FP) : Convex ℚ {q : FP | 0 ≤ area a b q} := by
  intro x hx y hy s t hs ht hst
  simp only [Set.mem_ofPred_eq] at hx hy ⊢
  have : area a b (s • x + t • y) = s * area a b x + t * area a b y := by
    have ht' : t = 1 - s := by linarith
    subst ht'
    unfold area
    simp only [Prod.fst_add, Prod.smul_fst, Prod.snd_add, Prod.smul_snd, smul_eq_mul]
    ring
  rw [this]
  positivity

/-- A convex polygon is the intersection of the half planes of its edges. -/
theorem _root_.Verif.Spec.ConvexPoly.hull {l : List FP} (h : ConvexPoly l) (q : FP) :
    q ∈ convexHull ℚ {a | a ∈ l} ↔ ∀ e ∈ pairs l, 0 ≤ area e.1 e.2 q := by
  constructor
  · intro hq e he
    have : convexHull ℚ {a | a ∈ l} ⊆ {q | 0 ≤ area e.1 e.2 q} :=
      convexHull_min (fun a ha => h.nonneg e he a ha) (halfplane_convex e.1 e.2)
    exact this hq
  · intro hq
    have h3 := h.1
    have hl : ∀ (i : Nat) (hi : i + 1 < l.length), 0 ≤ area l[i] l[i + 1] q := by
      intro i hi
      have := hq _ (pairs_index l i (by omega))
      simpa [Nat.mod_eq_of_lt hi] using this
    have hlast : 0 ≤ area l[l.length - 1] l[0] q := by
      have := hq _ (pairs_index l (l.length - 1) (by omega))
      have e : l.length - 1 + 1 = l.length := by omega
      simpa [e] using this
    have key : ∀ k, 1 ≤ k → (hk : k < l.length) → (0 ≤ area l[0] l[k] q ∧ (k = 1 ∨ 0 < area l[0] l[k] q)) ∨
        ∃ (i : Nat) (hi : i + 1 < l.length), 1 ≤ i ∧ 0 ≤ area l[0] l[i] q ∧ area l[0] l[i + 1] q ≤ 0 := by
      intro k
      induction k with
      | zero => intro h1; omega
      | succ k ih =>
        intro _ hk
        by_cases h0 : k = 0
        · subst h0
          exact Or.inl ⟨hl 0 hk, Or.inl rfl⟩
        · rcases ih (by omega) (by omega) with h | h
          · by_cases hc : 0 < area l[0] l[k + 1] q
            · exact Or.inl ⟨hc.le, Or.inr hc⟩
            · exact Or.inr ⟨k, hk, by omega, h.1, not_lt.mp hc⟩
          · exact Or.inr h
    have pos : ∀ (i : Nat) (hi : i + 1 < l.length), 1 ≤ i → 0 < area l[0] l[i] l[i + 1] := by
      intro i hi h1
      have := h.2 i 0 (by omega) (by omega) (by omega) (by rw [Nat.mod_eq_of_lt hi]; omega)
      simp only [Nat.mod_eq_of_lt hi] at this
      have e : area l[i] l[i + 1] l[0] = area l[0] l[i] l[i + 1] := by unfold area; ring
      rw [← e]; exact this
    have hlast' : area l[0] l[l.length - 1] q ≤ 0 := by
      have e : area l[l.length - 1] l[0] q = - area l[0] l[l.length - 1] q := by unfold area; ring
      rw [e] at hlast; linarith
    rcases key (l.length - 1) (by omega) (by omega) with ⟨_, hk | hk⟩ | ⟨i, hi, h1, h2, h4⟩
    · omega
    · linarith
    · refine mem_hull3 (S := {a | a ∈ l}) (List.getElem_mem (n := 0) (by omega)) (List.getElem_mem (n := i) (by omega))
        (List.getElem_mem (n := i + 1) hi) (pos _ hi h1) h2 (hl _ hi) ?_
      have e : area l[i + 1] l[0] q = - area l[0] l[i + 1] q := by unfold area; ring
      rw [e]; linarith

end Verif.Vor

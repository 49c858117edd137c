import Verif.Vor.Inside
import Verif.Spec.Around

/-!
# The second sort: vertices around their mean
-/

namespace Verif.Vor

open Verif.Tri Verif.Spec Verif.Float
open Verif.Incr hiding trunc step run Entry

/-- The offset from a centre. -/
def offc (m c : FP) : ℚ × ℚ := (c.1 - m.1, c.2 - m.2)

theorem cr_offc (m a b : FP) : cr (offc m a) (offc m b) = area m a b := rfl

theorem apart_notRay {m a b : FP} : Apart m a b ↔ NotRay (offc m a) (offc m b) := Iff.rfl

theorem _root_.Verif.Spec.Apart.symm {m a b : FP} (h : Apart m a b) : Apart m b a := by
  intro e
  have := h (by unfold area at e ⊢; linarith)
  linarith

instance (m : FP) : Std.Symm (Apart m) := ⟨fun _ _ h => h.symm⟩

theorem _root_.Verif.Spec.Apart.ne {m a b : FP} (h : Apart m a b) : a ≠ b := by
  rintro rfl
  have := h (by unfold area; ring)
  linarith [mul_self_nonneg (a.1 - m.1), mul_self_nonneg (a.2 - m.2)]

/-- Three directions in the order of the sort. -/
theorem ord_cyc {a b c : ℚ × ℚ} (hab : Ord a b) (hbc : Ord b c) (hac : Ord a c) (nab : NotRay a b) (nbc : NotRay b c) (nac : NotRay a c) :
    (0 < cr a b ∧ 0 < cr b c) ∨ (0 < cr b c ∧ 0 < cr c a) ∨ (0 < cr c a ∧ 0 < cr a b) := by
  have sw : cr c a = - cr a c := by unfold cr; ring
  have one : cr a b ≤ 0 → cr b c ≤ 0 → False := by
    intro h1 h2
    rcases ord_flat hab nab h1 with ⟨a1, b1⟩ | ⟨a1, b1, a2, b2⟩
    · rcases ord_flat hbc nbc h2 with ⟨b1', c1⟩ | ⟨b1', c1, b2, c2⟩
      · linarith
      · unfold cr at h1
        rw [b1'] at h1
        nlinarith
    · rcases ord_flat hbc nbc h2 with ⟨b1', c1⟩ | ⟨b1', c1, b2', c2⟩ <;> linarith
  have two : cr a b ≤ 0 → cr c a ≤ 0 → False := by
    intro h1 h2
    have h3 := turn_after hab nab h1 hbc
    have h0 : cr a c = 0 := by linarith
    have hd := nac h0
    unfold cr at h0 h1
    rcases ord_flat hab nab h1 with ⟨a1, b1⟩ | ⟨a1, b1, a2, b2⟩
    · have c1 : 0 < c.1 := by
        by_contra hc
        push Not at hc
        have : a.1 * (a.1 * c.1 + a.2 * c.2) = (a.1 ^ 2 + a.2 ^ 2) * c.1 := by linear_combination a.2 * h0
        have p1 : 0 < a.1 * (a.1 * c.1 + a.2 * c.2) := mul_pos_of_neg_of_neg a1 hd
        have p2 : (a.1 ^ 2 + a.2 ^ 2) * c.1 ≤ 0 := mul_nonpos_of_nonneg_of_nonpos (by positivity) hc
        linarith
      have h : c.1 * b.2 < b.1 * c.2 := by
        unfold Ord at hbc
        rcases hbc with ⟨h, _⟩ | ⟨h, _⟩ | ⟨_, _, _, h⟩ | ⟨h, _⟩ | ⟨h, _⟩
        · linarith
        · linarith
        · exact h
        · linarith
        · linarith
      have e : a.1 * (b.1 * c.2 - c.1 * b.2) = - c.1 * (a.1 * b.2 - a.2 * b.1) := by linear_combination b.1 * h0
      have p1 : a.1 * (b.1 * c.2 - c.1 * b.2) < 0 := mul_neg_of_neg_of_pos a1 (by linarith)
      have p2 : 0 ≤ - c.1 * (a.1 * b.2 - a.2 * b.1) := mul_nonneg_of_nonpos_of_nonpos (by linarith) h1
      linarith
    · have c1 : c.1 = 0 := by
        rw [a1] at h0
        have : a.2 * c.1 = 0 := by linarith
        exact (mul_eq_zero.mp this).resolve_left a2.ne
      have hbc' := nbc (by unfold cr; rw [b1, c1]; ring)
      rw [a1, c1] at hd
      rw [b1, c1] at hbc'
      have c2 : 0 < c.2 := by by_contra hc; push Not at hc; nlinarith
      nlinarith
  have three : cr b c ≤ 0 → cr c a ≤ 0 → False := by
    intro h1 h2
    rcases ord_flat hbc nbc h1 with ⟨b1, c1⟩ | ⟨b1, c1, b2, c2⟩
    · have ⟨a1, h⟩ : a.1 < 0 ∧ b.1 * a.2 < a.1 * b.2 := by
        unfold Ord at hab
        rcases hab with ⟨_, h⟩ | ⟨h, _, h'⟩ | ⟨_, h, _⟩ | ⟨h, _⟩ | ⟨h, _⟩
        · linarith
        · exact ⟨h, h'⟩
        · linarith
        · linarith
        · linarith
      have hac0 : 0 ≤ cr a c := by linarith
      have e1 : cr a b * c.1 = - cr b c * a.1 + cr a c * b.1 := by unfold cr; ring
      have e2 : cr a b * c.2 = - cr b c * a.2 + cr a c * b.2 := by unfold cr; ring
      have p0 : 0 < cr a b := by unfold cr; linarith
      have p1 : - cr b c * a.1 ≤ 0 := mul_nonpos_of_nonneg_of_nonpos (by linarith) a1.le
      have p2 : cr a c * b.1 ≤ 0 := mul_nonpos_of_nonneg_of_nonpos hac0 b1.le
      have p3 : 0 ≤ cr a b * c.1 := mul_nonneg p0.le c1
      have z1 : cr b c = 0 := by
        have : - cr b c * a.1 = 0 := by linarith
        have := (mul_eq_zero.mp this).resolve_right a1.ne
        linarith
      have z2 : cr a c = 0 := by
        have : cr a c * b.1 = 0 := by linarith
        exact (mul_eq_zero.mp this).resolve_right b1.ne
      rw [z1, z2] at e1 e2
      have c0 : c.1 = 0 := by
        have : cr a b * c.1 = 0 := by linarith
        exact (mul_eq_zero.mp this).resolve_left p0.ne'
      have c0' : c.2 = 0 := by
        have : cr a b * c.2 = 0 := by linarith
        exact (mul_eq_zero.mp this).resolve_left p0.ne'
      have := nbc z1
      rw [c0, c0'] at this
      linarith
    · have hac0 : 0 ≤ cr a c := by linarith
      unfold cr at hac0
      rw [c1] at hac0
      have a1 : 0 ≤ a.1 := by
        by_contra ha
        push Not at ha
        nlinarith
      unfold Ord at hab
      rcases hab with ⟨h, _⟩ | ⟨h, _⟩ | ⟨_, _, hz, h⟩ | ⟨h, h', _⟩ | ⟨h, h', _, h2, _⟩
      · linarith
      · linarith
      · rw [b1] at h
        nlinarith
      · have := nab (by unfold cr; rw [h, h']; ring)
        rw [h, h'] at this
        have hbc' := nac (by unfold cr; rw [c1, h']; ring)
        rw [c1, h'] at hbc'
        nlinarith
      · have := nab (by unfold cr; rw [h, h']; ring)
        rw [h, h'] at this
        nlinarith
  by_cases h1 : 0 < cr a b
  · by_cases h2 : 0 < cr b c
    · exact Or.inl ⟨h1, h2⟩
    · by_cases h3 : 0 < cr c a
      · exact Or.inr (Or.inr ⟨h3, h1⟩)
      · exact (three (not_lt.mp h2) (not_lt.mp h3)).elim
  · by_cases h2 : 0 < cr b c
    · by_cases h3 : 0 < cr c a
      · exact Or.inr (Or.inl ⟨h2, h3⟩)
      · exact (two (not_lt.mp h1) (not_lt.mp h3)).elim
    · exact (one (not_lt.mp h1) (not_lt.mp h2)).elim

/-! ### The mean -/

variable {F : FloatOps}

theorem mean_exact (E : Exact F) (l : List FP) : mean F l = avg l := by
  have key : ∀ (l : List FP) (c : FP), l.foldl (fun c p => (F.r64 (c.1 + p.1), F.r64 (c.2 + p.2))) c =
      (c.1 + (l.map Prod.fst).sum, c.2 + (l.map Prod.snd).sum) := by
    intro l
    induction l with
    | nil => intro c; simp
    | cons a l ih =>
      intro c
      rw [List.foldl_cons, ih]
      simp only [E.1, List.map_cons, List.sum_cons]
      exact Prod.ext (by simp only; ring) (by simp only; ring)
  unfold mean avg
  simp only [key, zero_add]
  simp only [E.1]

theorem avg_perm {l l' : List FP} (h : l.Perm l') : avg l = avg l' := by
  unfold avg
  rw [h.length_eq, (h.map Prod.fst).sum_eq, (h.map Prod.snd).sum_eq]

/-- The cross products with the offsets from the mean add up to zero. -/
theorem avg_sum {l : List FP} (hl : l ≠ []) (x y : ℚ) :
    (l.map fun c => x * (c.2 - (avg l).2) - y * (c.1 - (avg l).1)).sum = 0 := by
  have key : ∀ (l : List FP) (m : FP), (l.map fun c => x * (c.2 - m.2) - y * (c.1 - m.1)).sum =
      x * ((l.map Prod.snd).sum - l.length * m.2) - y * ((l.map Prod.fst).sum - l.length * m.1) := by
    intro l m
    induction l with
    | nil => simp
    | cons a l ih =>
      simp only [List.map_cons, List.sum_cons, ih, List.length_cons]
      push_cast
      ring
  rw [key]
  have : (l.length : ℚ) ≠ 0 := by
    have := List.length_pos_iff.mpr hl
    exact_mod_cast this.ne'
  unfold avg
  simp only
  rw [mul_div_cancel₀ _ this, mul_div_cancel₀ _ this]
  ring

/-- Of at least three points in different directions from their mean, some is to the left of the ray from the mean through any one. -/
theorem avg_left {l : List FP} (h3 : 3 ≤ l.length) (hn : l.Pairwise (Apart (avg l))) {a : FP} (ha : a ∈ l) :
    ∃ c ∈ l, 0 < area (avg l) a c := by
  by_contra hno
  push Not at hno
  set m := avg l with hm
  have hs := avg_sum (l := l) (List.ne_nil_of_mem ha) (a.1 - m.1) (a.2 - m.2)
  have hall : ∀ c ∈ l, area m a c = 0 := by
    intro c hc
    by_contra hne
    have hlt := lt_of_le_of_ne (hno c hc) hne
    have : (l.map fun c => (a.1 - m.1) * (c.2 - m.2) - (a.2 - m.2) * (c.1 - m.1)).sum < (l.map fun _ => (0 : ℚ)).sum :=
      List.sum_lt_sum _ _ (fun d hd => hno d hd) ⟨c, hc, hlt⟩
    simp only [List.map_const', List.sum_replicate, smul_zero] at this
    rw [← hm] at hs
    linarith
  have nd : l.Nodup := hn.imp Apart.ne
  have ap : ∀ x ∈ l, ∀ y ∈ l, x ≠ y → Apart m x y := fun x hx y hy hxy => hn.forall hx hy hxy
  obtain ⟨b, hb, c, hc, ab, ac, bc⟩ : ∃ b ∈ l, ∃ c ∈ l, a ≠ b ∧ a ≠ c ∧ b ≠ c := by
    have l2 : 2 ≤ (l.erase a).length := by rw [List.length_erase_of_mem ha]; omega
    have nd' := nd.erase a
    refine ⟨(l.erase a)[0], List.mem_of_mem_erase (List.getElem_mem _), (l.erase a)[1], List.mem_of_mem_erase (List.getElem_mem _), ?_, ?_, ?_⟩
    · intro h
      exact ((nd.mem_erase_iff).mp (List.getElem_mem (l := l.erase a) (n := 0) (by omega))).1 h.symm
    · intro h
      exact ((nd.mem_erase_iff).mp (List.getElem_mem (l := l.erase a) (n := 1) (by omega))).1 h.symm
    · intro h
      have := (List.Nodup.getElem_inj_iff nd').mp h
      omega
  have hab := ap a ha b hb ab (hall b hb)
  have hac := ap a ha c hc ac (hall c hc)
  have zb := hall b hb
  have zc := hall c hc
  unfold area at zb zc
  have na : 0 < (a.1 - m.1) ^ 2 + (a.2 - m.2) ^ 2 := by
    by_contra hx
    push Not at hx
    have s1 := sq_nonneg (a.1 - m.1)
    have s2 := sq_nonneg (a.2 - m.2)
    have e1 : a.1 - m.1 = 0 := pow_eq_zero_iff (two_ne_zero) |>.mp (le_antisymm (by linarith) s1)
    have e2 : a.2 - m.2 = 0 := pow_eq_zero_iff (two_ne_zero) |>.mp (le_antisymm (by linarith) s2)
    rw [e1, e2] at hab
    linarith
  have zbc : ((a.1 - m.1) ^ 2 + (a.2 - m.2) ^ 2) * area m b c = 0 := by
    unfold area
    linear_combination ((a.1 - m.1) * (b.1 - m.1) + (a.2 - m.2) * (b.2 - m.2)) * zc - ((a.1 - m.1) * (c.1 - m.1) + (a.2 - m.2) * (c.2 - m.2)) * zb
  have hbc := ap b hb c hc bc ((mul_eq_zero.mp zbc).resolve_left na.ne')
  have e : ((a.1 - m.1) ^ 2 + (a.2 - m.2) ^ 2) * ((b.1 - m.1) * (c.1 - m.1) + (b.2 - m.2) * (c.2 - m.2)) =
      ((a.1 - m.1) * (b.1 - m.1) + (a.2 - m.2) * (b.2 - m.2)) * ((a.1 - m.1) * (c.1 - m.1) + (a.2 - m.2) * (c.2 - m.2)) := by
    linear_combination ((a.1 - m.1) * (b.2 - m.2) - (a.2 - m.2) * (b.1 - m.1)) * zc
  have p1 := mul_pos_of_neg_of_neg hab hac
  have p2 := mul_neg_of_pos_of_neg na hbc
  linarith

/-! ### The second sort -/

theorem exact_rnd (E : Exact F) : Rnd 53 F.r64 := by
  have : F.r64 = fun x => x := funext E.1
  rw [this]; exact id_rnd 53

theorem bef_ord (E : Exact F) {m a b : FP} (h : Bef F m a b) : Ord (offc m a) (offc m b) := by
  unfold Bef dx dy at h
  simp only [E.1] at h
  unfold Ord offc
  rcases h with h | h | h | ⟨h1, h2, h3, h4⟩ | ⟨h1, h2, h3, h4, h5⟩
  · exact Or.inl h
  · exact Or.inr (Or.inl h)
  · exact Or.inr (Or.inr (Or.inl h))
  · exact Or.inr (Or.inr (Or.inr (Or.inl ⟨h1, h2, h3, by simpa using h4⟩)))
  · exact Or.inr (Or.inr (Or.inr (Or.inr ⟨h1, h2, h3, h4, by simpa using h5⟩)))

theorem apart_cmp (E : Exact F) {m a b : FP} (h : Apart m a b) : cmp F m b a ≠ none := by
  intro hc
  obtain ⟨h1, h2⟩ := cmp_none (exact_rnd E) hc
  simp only [dx, dy, E.1] at h1 h2
  have := h (by unfold area; linarith)
  obtain ⟨x, hx⟩ : ∃ x, x = a.1 - m.1 := ⟨_, rfl⟩
  obtain ⟨y, hy⟩ : ∃ x, x = a.2 - m.2 := ⟨_, rfl⟩
  obtain ⟨z, hz⟩ : ∃ x, x = b.1 - m.1 := ⟨_, rfl⟩
  obtain ⟨t, ht⟩ : ∃ x, x = b.2 - m.2 := ⟨_, rfl⟩
  rw [← hx, ← hy, ← hz, ← ht] at this
  rw [← hx, ← hz] at h1
  rw [← hx, ← hy, ← hz, ← ht] at h2
  have pos : 0 < x * z → False := by
    intro p
    have : (x * z) * (y * t) = (z * y) ^ 2 := by linear_combination (z * y) * h2
    have q : 0 ≤ (x * z) * (y * t) := by rw [this]; positivity
    have : 0 ≤ y * t := by
      by_contra hh
      push Not at hh
      have := mul_neg_of_pos_of_neg p hh
      linarith
    linarith
  rcases h1 with ⟨a1, b1⟩ | ⟨a1, b1, ne⟩
  · exact pos (mul_pos_of_neg_of_neg a1 b1)
  · rcases a1.eq_or_lt with a0 | ap
    · have zp : z ≠ 0 := fun e => ne ⟨a0.symm, e⟩
      have y0 : y = 0 := by
        rw [← a0] at h2
        have : z * y = 0 := by linarith
        exact (mul_eq_zero.mp this).resolve_left zp
      rw [← a0, y0] at this
      linarith
    · rcases b1.eq_or_lt with b0 | bp
      · have t0 : t = 0 := by
          rw [← b0] at h2
          have : x * t = 0 := by linarith
          exact (mul_eq_zero.mp this).resolve_left ap.ne'
        rw [← b0, t0] at this
        linarith
      · exact pos (mul_pos ap bp)

theorem less_total (E : Exact F) {m a b : FP} (h : Apart m a b) :
    (less F m a b = true ∧ less F m b a = false) ∨ (less F m a b = false ∧ less F m b a = true) := by
  have R := exact_rnd E
  unfold less
  cases h1 : cmp F m a b with
  | none => exact (apart_cmp E h.symm h1).elim
  | some u =>
    cases h2 : cmp F m b a with
    | none => exact (apart_cmp E h h2).elim
    | some v =>
      cases u with
      | true =>
        cases v with
        | true => exact ((cmp_true R h1).asymm (cmp_true R h2)).elim
        | false => exact Or.inl ⟨rfl, rfl⟩
      | false =>
        cases v with
        | true => exact Or.inr ⟨rfl, rfl⟩
        | false => exact ((cmp_false R h.symm.ne h1).asymm (cmp_false R h.ne h2)).elim

theorem less_bef (E : Exact F) {m a b : FP} (h : less F m a b = true) : Bef F m a b := by
  unfold less at h
  cases h1 : cmp F m a b with
  | none => rw [h1] at h; cases h
  | some u =>
    rw [h1] at h
    have hu : u = true := h
    exact cmp_true (exact_rnd E) (hu ▸ h1)

/-- The second sort orders the vertices around their mean. -/
theorem second_sort (E : Exact F) {srt : Sorter} (S : SorterOK srt) {r l : List FP}
    (hs : srt (fun b a => some (less F (mean F r) b a)) r = some l) (hn : l.Pairwise (Apart (avg l))) :
    (l.map (offc (avg l))).Pairwise Ord := by
  have hp := S.perm _ _ _ hs
  rw [mean_exact E, ← avg_perm hp] at hs
  have R := exact_rnd E
  have hr : r.Pairwise (Apart (avg l)) := (hp.pairwise_iff (fun h => h.symm)).mp hn
  have ap : ∀ x ∈ r, ∀ y ∈ r, x ≠ y → Apart (avg l) x y := fun x hx y hy hxy => hr.forall hx hy hxy
  have := S.sorted _ _ _ hs (hr.imp fun {a b} h => by simpa using less_total E h) (by
    intro x hx y hy z hz h1 h2
    have b1 := less_bef E (m := avg l) (by simpa using h1 : less F (avg l) x y = true)
    have b2 := less_bef E (m := avg l) (by simpa using h2 : less F (avg l) y z = true)
    have b := b1.trans R b2
    by_cases e : x = z
    · subst e; exact (b.asymm b).elim
    · rcases less_total E (ap x hx z hz e) with ⟨k, _⟩ | ⟨_, k⟩
      · simp [k]
      · exact (b.asymm (less_bef E k)).elim)
  rw [List.pairwise_map]
  exact this.imp fun {a b} h => bef_ord E (less_bef E (by simpa using h))

end Verif.Vor

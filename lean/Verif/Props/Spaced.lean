import Verif.Props.Small

/-! # C89: what the spaced generator does with the distances -/

namespace Verif.Props

open Verif.Tri Verif.Float Verif.Fit Verif.Alg Verif.Small

/-- Different points of the list are at least `δ` apart (squared distance). -/
def Apart (δ : ℚ) (ps : List NP) : Prop := ∀ x ∈ ps, ∀ y ∈ ps, x ≠ y → δ ≤ sqDist x y

section
variable {σ : Type}

theorem spacedStep_move {r : Source σ} (ok : r.OK) (fl sq : ℚ → ℚ) {n : Int} {dec : ℚ} {st st' : List NP × ℚ × σ} (e : spacedStep r fl sq n dec st = some st') :
    st'.2.1 = fl (st.2.1 * dec) ∧
    (st'.1 = st.1 ∨ ∃ i p q c d a b, st.1[i]? = some p ∧ st'.1 = st.1.set i q ∧ closestTo fl sq p st.1 = some c ∧
      closestTo fl sq q st.1 = some d ∧ c.2 < d.2 ∧ (0 ≤ a ∧ a < 1) ∧ (0 ≤ b ∧ b < 1) ∧
      q = constrain ⟨fl (p.x + fl (fl (a - 1 / 2) * st.2.1)), fl (p.y + fl (fl (b - 1 / 2) * st.2.1))⟩) := by
  unfold spacedStep at e
  split at e
  · cases e
  · simp only [Option.bind_eq_bind, pure, Option.bind_eq_some_iff] at e
    obtain ⟨p, hp, c, hc, d, hd, e⟩ := e
    cases e
    refine ⟨rfl, ?_⟩
    simp only
    split
    · rename_i h
      exact Or.inr ⟨_, p, _, c, d, _, _, hp, rfl, hc, hd, h, ok.float64 _, ok.float64 _, rfl⟩
    · exact Or.inl rfl

theorem dist_symm {fl : ℚ → ℚ} (odd : ∀ x, fl (-x) = -fl x) (sq : ℚ → ℚ) (a b : NP) : dist fl sq a b = dist fl sq b a := by
  unfold dist
  simp only
  rw [← neg_sub b.x a.x, ← neg_sub b.y a.y, odd, odd, neg_mul_neg, neg_mul_neg]

/-- The invariant: not all points are equal, and the computed distances of different points are at least `δ`. -/
def Spread (fl sq : ℚ → ℚ) (δ : ℚ) (ps : List NP) : Prop := (∃ x ∈ ps, ∃ y ∈ ps, x ≠ y) ∧ ∀ x ∈ ps, ∀ y ∈ ps, x ≠ y → δ ≤ dist fl sq x y ^ 2

theorem spread_step {r : Source σ} (ok : r.OK) {fl sq : ℚ → ℚ} (odd : ∀ x, fl (-x) = -fl x) (hs : ∀ x, 0 ≤ sq x) {n : Int} {dec δ : ℚ}
    {st st' : List NP × ℚ × σ} (e : spacedStep r fl sq n dec st = some st') (I : Spread fl sq δ st.1) : Spread fl sq δ st'.1 := by
  obtain ⟨-, h | ⟨i, p, q, c, d, -, -, hp, he, hc, hd, hlt, -⟩⟩ := spacedStep_move ok fl sq e
  · rw [h]; exact I
  obtain ⟨⟨u, hu, v, hv, huv⟩, I2⟩ := I
  have hpm : p ∈ st.1 := List.mem_of_getElem? hp
  -- the old point is not alone
  have hc' : (∃ x ∈ st.1, x ≠ p ∧ dist fl sq x p = c.2) ∧ ∀ y ∈ st.1, y ≠ p → c.2 ≤ dist fl sq y p := by
    rcases closestTo_spec hs hc with ⟨h, -⟩ | h
    · exact absurd ((h u hu).trans (h v hv).symm) huv
    · exact h
  obtain ⟨⟨x, hx, hxp, hcx⟩, hc2⟩ := hc'
  have c0 : 0 ≤ c.2 := by rw [← hcx]; exact hs _
  have hδ : δ ≤ c.2 ^ 2 := by rw [← hcx]; exact I2 x hx p hpm hxp
  have hd' : ∀ y ∈ st.1, y ≠ q → c.2 < dist fl sq y q := by
    intro y hy hyq
    rcases closestTo_spec hs hd with ⟨h, -⟩ | ⟨-, h⟩
    · exact absurd (h y hy) hyq
    · exact hlt.trans_le (h y hy hyq)
  rw [he]
  have hlen := (List.getElem?_eq_some_iff.mp hp).1
  have hq : q ∈ st.1.set i q := List.mem_set hlen q
  refine ⟨?_, ?_⟩
  · by_contra hcon
    push Not at hcon
    have all : ∀ y ∈ st.1.set i q, y = q := fun y hy => hcon y hy q hq
    -- then every other point was q
    have other : ∀ y ∈ st.1, y = p ∨ y = q := by
      intro y hy
      obtain ⟨j, hj⟩ := List.mem_iff_getElem?.mp hy
      by_cases hij : i = j
      · subst hij; rw [hp] at hj; exact Or.inl (Option.some.inj hj).symm
      · exact Or.inr (all y (List.mem_of_getElem? (by rw [List.getElem?_set_ne hij]; exact hj)))
    have hxq : x = q := (other x hx).resolve_left hxp
    have := hd' p hpm (fun h => hxp (hxq.trans h.symm))
    rw [← hcx, hxq, dist_symm odd] at this
    exact lt_irrefl _ this
  · have new : ∀ y ∈ st.1, y ≠ q → δ ≤ dist fl sq y q ^ 2 := fun y hy hyq => hδ.trans (pow_le_pow_left₀ c0 (hd' y hy hyq).le 2)
    intro a ha b hb hab
    rcases List.mem_or_eq_of_mem_set ha with ha' | ha' <;> rcases List.mem_or_eq_of_mem_set hb with hb' | hb'
    · exact I2 a ha' b hb' hab
    · rw [hb']; exact new a ha' (fun h => hab (h.trans hb'.symm))
    · rw [dist_symm odd, ha']; exact new b hb' (fun h => hab (ha'.trans h.symm))
    · exact absurd (ha'.trans hb'.symm) hab

theorem spread_iterate {r : Source σ} (ok : r.OK) {fl sq : ℚ → ℚ} (odd : ∀ x, fl (-x) = -fl x) (hs : ∀ x, 0 ≤ sq x) {n : Int} {dec δ : ℚ} :
    ∀ (k : Nat) {st st' : List NP × ℚ × σ}, iterate (spacedStep r fl sq n dec) k st = some st' → Spread fl sq δ st.1 → Spread fl sq δ st'.1
  | 0, st, st', e, I => by cases e; exact I
  | k + 1, st, st', e, I => by
    obtain ⟨s1, e1, e2⟩ := Option.bind_eq_some_iff.mp e
    exact spread_step ok odd hs e2 (spread_iterate ok odd hs k e1 I)

/-- **C89**: the generator never brings points closer together than they were: if different points of the random start are at least `δ` apart (squared
distance), so are those of the result, up to one part in 2^47, after any number of iterations. -/
theorem c89_separation {r : Source σ} (ok : r.OK) {fl sq : ℚ → ℚ} (R : Rnd 53 fl) (odd : ∀ x, fl (-x) = -fl x) (Q : SqrtOK sq) {n : Int} {dec δ : ℚ}
    {k : Nat} {s : σ} {out : List NP} (e : genSpaced r fl sq k dec n s = some out) (two : ∃ x ∈ genRandom r n s, ∃ y ∈ genRandom r n s, x ≠ y)
    (h0 : 0 ≤ δ) (h : Apart δ (genRandom r n s)) : (∃ x ∈ out, ∃ y ∈ out, x ≠ y) ∧ Apart (δ * (1 - 1 / 2 ^ 47)) out := by
  unfold genSpaced at e
  obtain ⟨st', e1, rfl⟩ := Option.map_eq_some_iff.mp e
  have near : ∀ x y : NP, sqDist x y * (1 - 1 / 2 ^ 49) ≤ dist fl sq x y ^ 2 ∧ dist fl sq x y ^ 2 ≤ sqDist x y * (1 + 1 / 2 ^ 49) := by
    intro x y
    obtain ⟨a, b⟩ := abs_le.mp (c66_dist R Q x y).2
    constructor <;> linarith
  have I : Spread fl sq (δ * (1 - 1 / 2 ^ 49)) (genRandom r n s) :=
    ⟨two, fun x hx y hy hxy => le_trans (mul_le_mul_of_nonneg_right (h x hx y hy hxy) (by norm_num)) (near x y).1⟩
  obtain ⟨J1, J2⟩ := spread_iterate ok odd Q.nonneg k e1 I
  refine ⟨J1, fun x hx y hy hxy => ?_⟩
  have h1 := (J2 x hx y hy hxy).trans (near x y).2
  have h2 : δ * (1 - 1 / 2 ^ 47) * (1 + 1 / 2 ^ 49) ≤ sqDist x y * (1 + 1 / 2 ^ 49) := by
    refine le_trans ?_ h1
    rw [mul_assoc]
    exact mul_le_mul_of_nonneg_left (by norm_num) h0
  exact le_of_mul_le_mul_right h2 (by norm_num)

theorem jump_aux {fl sq : ℚ → ℚ} (R : Rnd 53 fl) (odd : ∀ x, fl (-x) = -fl x) (Q : SqrtOK sq) {ps : List NP} {p q : NP} {c d : NP × ℚ} (hpm : p ∈ ps)
    (hc : closestTo fl sq p ps = some c) (hd : closestTo fl sq q ps = some d) (hlt : c.2 < d.2) (two : ∃ x ∈ ps, ∃ y ∈ ps, x ≠ y) :
    ∃ x ∈ ps, x ≠ p ∧ sqDist x p ≤ sqDist q p * (1 + 1 / 2 ^ 47) := by
  have hqp : q ≠ p := by
    rintro rfl
    rw [hc] at hd
    cases hd
    exact lt_irrefl _ hlt
  obtain ⟨u, hu, v, hv, huv⟩ := two
  rcases closestTo_spec Q.nonneg hc with ⟨h, -⟩ | ⟨⟨x, hx, hxp, hcx⟩, -⟩
  · exact absurd ((h u hu).trans (h v hv).symm) huv
  · refine ⟨x, hx, hxp, ?_⟩
    rcases closestTo_spec Q.nonneg hd with ⟨h, -⟩ | ⟨-, h⟩
    · exact absurd (h p hpm).symm hqp
    · have hl : dist fl sq x p ≤ dist fl sq p q := by rw [hcx]; exact (hlt.trans_le (h p hpm (Ne.symm hqp))).le
      rw [dist_symm odd sq p q] at hl
      have h1 : dist fl sq x p ^ 2 ≤ dist fl sq q p ^ 2 := pow_le_pow_left₀ (Q.nonneg _) hl 2
      obtain ⟨a, -⟩ := abs_le.mp (c66_dist R Q x p).2
      obtain ⟨-, b⟩ := abs_le.mp (c66_dist R Q q p).2
      have h0 : 0 ≤ sqDist q p := by unfold sqDist; positivity
      have h2 : sqDist x p * (1 - 1 / 2 ^ 49) ≤ sqDist q p * (1 + 1 / 2 ^ 49) := by linarith
      have h3 : sqDist q p * (1 + 1 / 2 ^ 49) ≤ sqDist q p * (1 + 1 / 2 ^ 47) * (1 - 1 / 2 ^ 49) := by
        rw [mul_assoc]; exact mul_le_mul_of_nonneg_left (by norm_num) h0
      exact le_of_mul_le_mul_right (h2.trans h3) (by norm_num)

/-- **C89**, a move is a jump: a point is only moved farther than the distance to its nearest neighbour, as its own old place is counted among the other
points. -/
theorem c89_jump {r : Source σ} (ok : r.OK) {fl sq : ℚ → ℚ} (R : Rnd 53 fl) (odd : ∀ x, fl (-x) = -fl x) (Q : SqrtOK sq) {n : Int} {dec : ℚ}
    {st st' : List NP × ℚ × σ} (e : spacedStep r fl sq n dec st = some st') (two : ∃ x ∈ st.1, ∃ y ∈ st.1, x ≠ y) :
    st'.1 = st.1 ∨ ∃ i p q, st.1[i]? = some p ∧ st'.1 = st.1.set i q ∧ ∃ x ∈ st.1, x ≠ p ∧ sqDist x p ≤ sqDist q p * (1 + 1 / 2 ^ 47) := by
  obtain ⟨-, h | ⟨i, p, q, c, d, -, -, hp, he, hc, hd, hlt, -⟩⟩ := spacedStep_move ok fl sq e
  · exact Or.inl h
  · exact Or.inr ⟨i, p, q, hp, he, jump_aux R odd Q (List.mem_of_getElem? hp) hc hd hlt two⟩

theorem clamp_near {x y ε : ℚ} (h0 : 0 ≤ x) (h1 : x ≤ 1) (h : |y - x| ≤ ε) : |clamp y - x| ≤ ε := by
  rw [abs_le] at h ⊢
  unfold clamp
  split
  · constructor <;> linarith
  · split <;> constructor <;> linarith

/-- The size of a step: half of `temp` in each coordinate, up to rounding. -/
theorem step_size {fl : ℚ → ℚ} (R : Rnd 53 fl) {x a t : ℚ} (x0 : 0 ≤ x) (x1 : x ≤ 1) (a0 : 0 ≤ a) (a1 : a < 1) (t0 : 0 ≤ t) (t1 : t ≤ 1) :
    |clamp (fl (x + fl (fl (a - 1 / 2) * t))) - x| ≤ t / 2 + 1 / 2 ^ 50 := by
  refine clamp_near x0 x1 ?_
  have e1 := R.err (a - 1 / 2)
  have ha : |a - 1 / 2| ≤ 1 / 2 := by rw [abs_le]; constructor <;> linarith
  have f1 : |fl (a - 1 / 2)| ≤ 1 / 2 + 1 / 2 ^ 54 := by
    have := abs_sub_abs_le_abs_sub (fl (a - 1 / 2)) (a - 1 / 2)
    have h' : |a - 1 / 2| / 2 ^ 53 ≤ 1 / 2 / 2 ^ 53 := by gcongr
    norm_num at h' this ⊢
    linarith
  generalize fl (a - 1 / 2) = b at *
  have f2 : |b * t| ≤ t / 2 + 1 / 2 ^ 54 := by
    rw [abs_mul, abs_of_nonneg t0]
    have := mul_le_mul_of_nonneg_right f1 t0
    have h2 : t * (1 / 2 ^ 54) ≤ 1 * (1 / 2 ^ 54) := mul_le_mul_of_nonneg_right t1 (by norm_num)
    linarith
  have e2 := R.err (b * t)
  have f3 : |fl (b * t)| ≤ t / 2 + 1 / 2 ^ 52 := by
    have := abs_sub_abs_le_abs_sub (fl (b * t)) (b * t)
    have h' : |b * t| / 2 ^ 53 ≤ (t / 2 + 1 / 2 ^ 54) / 2 ^ 53 := by gcongr
    generalize |b * t| = z at *
    norm_num at h' e2 f2 ⊢
    linarith
  generalize fl (b * t) = c at *
  have e3 := R.err (x + c)
  have f4 : |x + c| ≤ 2 := by
    have := abs_add_le x c
    rw [abs_of_nonneg x0] at this
    norm_num at f3
    linarith
  have f5 : |x + c| / 2 ^ 53 ≤ 2 / 2 ^ 53 := by gcongr
  have : |fl (x + c) - x| ≤ |fl (x + c) - (x + c)| + |c| := by
    have := abs_add_le (fl (x + c) - (x + c)) c
    rwa [show fl (x + c) - (x + c) + c = fl (x + c) - x by ring] at this
  norm_num at f3 f5 e3 ⊢
  linarith

/-- **C89**, where the generator gets stuck: while `temp` is at most 1, a point farther than `temp / sqrt 2` (and rounding) from all points elsewhere keeps its
place, wherever the random numbers would move it. -/
theorem c89_stuck {r : Source σ} (ok : r.OK) {fl sq : ℚ → ℚ} (R : Rnd 53 fl) (odd : ∀ x, fl (-x) = -fl x) (Q : SqrtOK sq) {n : Int} {dec : ℚ}
    {st st' : List NP × ℚ × σ} (e : spacedStep r fl sq n dec st = some st') (two : ∃ x ∈ st.1, ∃ y ∈ st.1, x ≠ y)
    (t0 : 0 ≤ st.2.1) (t1 : st.2.1 ≤ 1) {j : Nat} {p : NP} (hj : st.1[j]? = some p) (hp : In01 p)
    (far : ∀ x ∈ st.1, x ≠ p → 2 * (st.2.1 / 2 + 1 / 2 ^ 48) ^ 2 < sqDist x p) : st'.1[j]? = some p := by
  obtain ⟨-, h | ⟨i, p', q, c, d, a, b, hi, he, hc, hd, hlt, ⟨a0, a1⟩, ⟨b0, b1⟩, hq⟩⟩ := spacedStep_move ok fl sq e
  · rw [h]; exact hj
  by_cases hij : i = j
  · exfalso
    subst hij
    rw [hj] at hi
    cases hi
    obtain ⟨x, hx, hxp, hle⟩ := jump_aux R odd Q (List.mem_of_getElem? hj) hc hd hlt two
    have hfar := far x hx hxp
    have sx := step_size R hp.1.1 hp.1.2 a0 a1 t0 t1
    have sy := step_size R hp.2.1 hp.2.2 b0 b1 t0 t1
    have b' : sqDist q p ≤ 2 * (st.2.1 / 2 + 1 / 2 ^ 50) ^ 2 := by
      rw [hq]
      unfold sqDist constrain
      have h1 := pow_le_pow_left₀ (abs_nonneg _) sx 2
      have h2 := pow_le_pow_left₀ (abs_nonneg _) sy 2
      rw [sq_abs] at h1 h2
      simp only
      linarith
    have h3 := mul_le_mul_of_nonneg_right b' (show (0 : ℚ) ≤ 1 + 1 / 2 ^ 47 by norm_num)
    generalize st.2.1 = t at *
    have h4 : 2 * (t / 2 + 1 / 2 ^ 50) ^ 2 * (1 + 1 / 2 ^ 47) ≤ 2 * (t / 2 + 1 / 2 ^ 48) ^ 2 := by nlinarith
    linarith
  · rw [he, List.getElem?_set_ne hij]; exact hj

end

/-- Two points at opposite corners stay there once `temp` has come down to 1. -/
example (st' : List NP × ℚ × Nat) (e : spacedStep counter (rne 53) sqrt64 2 (1 / 2) ([⟨0, 0⟩, ⟨1, 1⟩], 1, 5) = some st') : st'.1 = [⟨0, 0⟩, ⟨1, 1⟩] := by
  have two : ∃ x ∈ [(⟨0, 0⟩ : NP), ⟨1, 1⟩], ∃ y ∈ [(⟨0, 0⟩ : NP), ⟨1, 1⟩], x ≠ y := ⟨⟨0, 0⟩, by simp, ⟨1, 1⟩, by simp, by decide⟩
  have h0 := c89_stuck counter_ok (rne_rnd (by norm_num)) (rne_neg 53) sqrt64_ok e two (by norm_num) (by norm_num) (j := 0) rfl
    (by unfold In01; norm_num) (by simp only [List.mem_cons, List.not_mem_nil, or_false]; rintro x (rfl | rfl) h <;> [exact absurd rfl h; (unfold sqDist; norm_num)])
  have h1 := c89_stuck counter_ok (rne_rnd (by norm_num)) (rne_neg 53) sqrt64_ok e two (by norm_num) (by norm_num) (j := 1) rfl
    (by unfold In01; norm_num) (by simp only [List.mem_cons, List.not_mem_nil, or_false]; rintro x (rfl | rfl) h <;> [(unfold sqDist; norm_num); exact absurd rfl h])
  obtain ⟨st'', e', h⟩ := spacedStep_ok counter_ok (rne 53) sqrt64 (n := 2) (by norm_num) (1 / 2) (st := ([⟨0, 0⟩, ⟨1, 1⟩], 1, 5)) rfl
  rw [e] at e'; cases e'
  have hl : st'.1.length = 2 := by rcases h with h | ⟨_, _, _, _, _, _, h, _⟩ <;> rw [h] <;> simp
  match hs : st'.1, hl with
  | [a, b], _ => rw [hs] at h0 h1; simp at h0 h1; rw [h0, h1]

/-- Three points of a counting source: no two points come closer. -/
example : ∃ out, genSpaced counter (rne 53) sqrt64 5 (1 / 2) 3 0 = some out ∧ Apart (1 / 8 * (1 - 1 / 2 ^ 47)) out := by
  obtain ⟨out, e, -⟩ := c51_spaced counter_ok (rne 53) sqrt64 5 (1 / 2) (n := 3) (by norm_num) 0
  have g : genRandom counter 3 0 = [⟨0, 1 / 8⟩, ⟨1 / 4, 3 / 8⟩, ⟨1 / 2, 5 / 8⟩] := by decide +kernel
  refine ⟨out, e, (c89_separation counter_ok (rne_rnd (by norm_num)) (rne_neg 53) sqrt64_ok e ?_ (by norm_num) ?_).2⟩
  · rw [g]; exact ⟨⟨0, 1 / 8⟩, by simp, ⟨1 / 4, 3 / 8⟩, by simp, by decide +kernel⟩
  · rw [g]
    intro x hx y hy hxy
    simp only [List.mem_cons, List.not_mem_nil, or_false] at hx hy
    rcases hx with rfl | rfl | rfl <;> rcases hy with rfl | rfl | rfl <;> first | exact absurd rfl hxy | (unfold sqDist; norm_num)

/-- A step from those points: the point moved goes at least as far as another point was. -/
example : ∃ st', spacedStep counter (rne 53) sqrt64 2 (1 / 2) ([⟨0, 1 / 8⟩, ⟨1 / 4, 3 / 8⟩], 1, 5) = some st' ∧
    (st'.1 = [⟨0, 1 / 8⟩, ⟨1 / 4, 3 / 8⟩] ∨ ∃ i p q, [⟨0, 1 / 8⟩, ⟨1 / 4, 3 / 8⟩][i]? = some p ∧ st'.1 = [⟨0, 1 / 8⟩, ⟨1 / 4, 3 / 8⟩].set i q ∧
      ∃ x ∈ [(⟨0, 1 / 8⟩ : NP), ⟨1 / 4, 3 / 8⟩], x ≠ p ∧ sqDist x p ≤ sqDist q p * (1 + 1 / 2 ^ 47)) := by
  obtain ⟨st', e, -⟩ := c66_spaced_step counter_ok (rne 53) (fun x => sqrt64_ok.nonneg x) (n := 2) (by norm_num) (1 / 2) (st := ([⟨0, 1 / 8⟩, ⟨1 / 4, 3 / 8⟩], 1, 5)) rfl
  exact ⟨st', e, c89_jump counter_ok (rne_rnd (by norm_num)) (rne_neg 53) sqrt64_ok e ⟨⟨0, 1 / 8⟩, by simp, ⟨1 / 4, 3 / 8⟩, by simp, by decide +kernel⟩⟩

end Verif.Props

import Verif.Tri.Basic
import Mathlib.Data.List.Count

/-!
# Half-open triangles, crossing numbers and the chain condition
-/

namespace Verif.Tri

/-- An edge whose own points belong to the half-open triangle on its left:
rising edges, and horizontal edges pointing right. -/
def ownEdge (u v : P2) : Prop := u.y < v.y ∨ (u.y = v.y ∧ u.x < v.x)

instance (u v : P2) : Decidable (ownEdge u v) := by unfold ownEdge; infer_instance

/-- `q` is on the inner side of the directed edge `u v` (half-open convention). -/
def onLeft (u v q : P2) : Prop := if ownEdge u v then 0 ≤ ori u v q else 0 < ori u v q

instance (u v q : P2) : Decidable (onLeft u v q) := by unfold onLeft; infer_instance

/-- Membership in a counterclockwise triangle, half-open: of two triangles sharing an
edge, exactly one owns the points of that edge. -/
def HalfOpen (t : T3) (q : P2) : Prop := onLeft t.a t.b q ∧ onLeft t.b t.c q ∧ onLeft t.c t.a q

instance (t : T3) (q : P2) : Decidable (HalfOpen t q) := by unfold HalfOpen; infer_instance

theorem onLeft_nonneg {u v q : P2} (h : onLeft u v q) : 0 ≤ ori u v q := by
  unfold onLeft at h; split at h <;> linarith

theorem onLeft_of_pos {u v q : P2} (h : 0 < ori u v q) : onLeft u v q := by
  unfold onLeft; split <;> linarith

/-- The open triangle is contained in the half-open triangle. -/
theorem HalfOpen.of_interior {t : T3} {q : P2} (h1 : 0 < ori t.a t.b q) (h2 : 0 < ori t.b t.c q)
    (h3 : 0 < ori t.c t.a q) : HalfOpen t q :=
  ⟨onLeft_of_pos h1, onLeft_of_pos h2, onLeft_of_pos h3⟩

theorem HalfOpen.rot {t : T3} {q : P2} : HalfOpen t.rot q ↔ HalfOpen t q := by
  unfold HalfOpen T3.rot; simp only; tauto

/-- Signed crossing of the directed edge `u v` with the ray from `q` to the right. -/
def cr (q u v : P2) : ℤ :=
  (if u.y ≤ q.y ∧ q.y < v.y ∧ 0 ≤ ori u v q then 1 else 0) -
  (if v.y ≤ q.y ∧ q.y < u.y ∧ 0 ≤ ori v u q then 1 else 0)

/-- Antisymmetric edge functions. -/
def Anti (f : P2 → P2 → ℤ) : Prop := ∀ u v, f u v = - f v u

theorem cr_anti (q : P2) : Anti (cr q) := by intro u v; unfold cr; ring

/-- Sum of an edge function around a triangle. -/
def esum (f : P2 → P2 → ℤ) (t : T3) : ℤ := f t.a t.b + f t.b t.c + f t.c t.a

theorem esum_rot (f : P2 → P2 → ℤ) (t : T3) : esum f t.rot = esum f t := by
  unfold esum T3.rot; ring

private theorem ytot (a b c q : P2) : ori b c q * (a.y - q.y) + ori c a q * (b.y - q.y)
    + ori a b q * (c.y - q.y) = 0 := by unfold ori; ring

private theorem cr_case_one (t : T3) (h : 0 < t.or) (q : P2) (ha : t.a.y ≤ q.y) (hb : q.y < t.b.y)
    (hc : q.y < t.c.y) : esum (cr q) t = if HalfOpen t q then 1 else 0 := by
  have hy := ytot t.a t.b t.c q
  have hs := ori_sum t.a t.b t.c q
  change _ = t.or at hs
  have e1 : cr q t.a t.b = if 0 ≤ ori t.a t.b q then 1 else 0 := by
    unfold cr
    rw [if_neg (c := t.b.y ≤ q.y ∧ q.y < t.a.y ∧ 0 ≤ ori t.b t.a q) (by rintro ⟨h1, _, _⟩; linarith)]
    simp [ha, hb]
  have e2 : cr q t.b t.c = 0 := by
    unfold cr
    rw [if_neg (by rintro ⟨h1, _, _⟩; linarith), if_neg (by rintro ⟨h1, _, _⟩; linarith)]; rfl
  have e3 : cr q t.c t.a = if 0 < ori t.c t.a q then 0 else -1 := by
    unfold cr
    rw [if_neg (c := t.c.y ≤ q.y ∧ q.y < t.a.y ∧ 0 ≤ ori t.c t.a q) (by rintro ⟨h1, _, _⟩; linarith)]
    by_cases h0 : 0 < ori t.c t.a q
    · rw [if_pos h0, if_neg]; · rfl
      rintro ⟨_, _, h1⟩; rw [ori_swap] at h1; linarith
    · rw [if_neg h0, if_pos]; · rfl
      refine ⟨ha, hc, ?_⟩; rw [ori_swap]; linarith
  unfold esum; rw [e1, e2, e3]
  by_cases h1 : 0 ≤ ori t.a t.b q <;> by_cases h2 : 0 < ori t.c t.a q
  · rw [if_pos h1, if_pos h2, if_pos]; · rfl
    have hlt : t.a.y < q.y ∧ 0 < ori t.b t.c q := by
      have k1 : 0 < ori t.c t.a q * (t.b.y - q.y) := mul_pos h2 (by linarith)
      have k2 : 0 ≤ ori t.a t.b q * (t.c.y - q.y) := mul_nonneg h1 (by linarith)
      have k3 : 0 < ori t.b t.c q * (q.y - t.a.y) := by linarith
      have k4 : 0 ≤ q.y - t.a.y := by linarith
      rcases eq_or_lt_of_le k4 with k5 | k5
      · rw [← k5] at k3; simp at k3
      · exact ⟨by linarith, (pos_iff_pos_of_mul_pos k3).mpr k5⟩
    refine ⟨?_, onLeft_of_pos hlt.2, onLeft_of_pos h2⟩
    unfold onLeft; rw [if_pos]; · exact h1
    left; linarith
  · rw [if_pos h1, if_neg h2, if_neg]; · rfl
    rintro ⟨_, _, h5⟩; unfold onLeft at h5
    rw [if_neg] at h5; · exact h2 h5
    rintro (h6 | h6) <;> linarith [h6]
  · rw [if_neg h1, if_pos h2, if_neg]; · rfl
    rintro ⟨h5, _, _⟩; exact h1 (onLeft_nonneg h5)
  · exfalso
    push Not at h1 h2
    have k1 : ori t.c t.a q * (t.b.y - q.y) ≤ 0 :=
      mul_nonpos_of_nonpos_of_nonneg h2 (by linarith)
    have k2 : ori t.a t.b q * (t.c.y - q.y) < 0 := mul_neg_of_neg_of_pos h1 (by linarith)
    have k3 : 0 < ori t.b t.c q := by linarith
    have k4 : ori t.b t.c q * (t.a.y - q.y) ≤ 0 :=
      mul_nonpos_of_nonneg_of_nonpos k3.le (by linarith)
    linarith

private theorem cr_case_two (t : T3) (h : 0 < t.or) (q : P2) (ha : t.a.y ≤ q.y) (hb : t.b.y ≤ q.y)
    (hc : q.y < t.c.y) : esum (cr q) t = if HalfOpen t q then 1 else 0 := by
  have hy := ytot t.a t.b t.c q
  have hs := ori_sum t.a t.b t.c q
  change _ = t.or at hs
  have e1 : cr q t.a t.b = 0 := by
    unfold cr
    rw [if_neg (by rintro ⟨_, h1, _⟩; linarith), if_neg (by rintro ⟨_, h1, _⟩; linarith)]; rfl
  have e2 : cr q t.b t.c = if 0 ≤ ori t.b t.c q then 1 else 0 := by
    unfold cr
    rw [if_neg (c := t.c.y ≤ q.y ∧ q.y < t.b.y ∧ 0 ≤ ori t.c t.b q) (by rintro ⟨h1, _, _⟩; linarith)]
    simp [hb, hc]
  have e3 : cr q t.c t.a = if 0 < ori t.c t.a q then 0 else -1 := by
    unfold cr
    rw [if_neg (c := t.c.y ≤ q.y ∧ q.y < t.a.y ∧ 0 ≤ ori t.c t.a q) (by rintro ⟨h1, _, _⟩; linarith)]
    by_cases h0 : 0 < ori t.c t.a q
    · rw [if_pos h0, if_neg]; · rfl
      rintro ⟨_, _, h1⟩; rw [ori_swap] at h1; linarith
    · rw [if_neg h0, if_pos]; · rfl
      refine ⟨ha, hc, ?_⟩; rw [ori_swap]; linarith
  unfold esum; rw [e1, e2, e3]
  by_cases h1 : 0 ≤ ori t.b t.c q <;> by_cases h2 : 0 < ori t.c t.a q
  · rw [if_pos h1, if_pos h2, if_pos]; · rfl
    have k1 : 0 ≤ ori t.b t.c q * (q.y - t.a.y) := mul_nonneg h1 (by linarith)
    have k2 : 0 ≤ ori t.c t.a q * (q.y - t.b.y) := mul_nonneg h2.le (by linarith)
    have kc : 0 < t.c.y - q.y := by linarith
    have k3 : 0 ≤ ori t.a t.b q * (t.c.y - q.y) := by linarith
    refine ⟨?_, ?_, onLeft_of_pos h2⟩
    · unfold onLeft
      split
      · exact nonneg_of_mul_nonneg_left k3 kc
      · rename_i hno
        unfold ownEdge at hno
        push Not at hno
        rcases lt_or_eq_of_le hno.1 with h5 | h5
        · have : 0 < ori t.c t.a q * (q.y - t.b.y) := mul_pos h2 (by linarith)
          have k5 : 0 < ori t.a t.b q * (t.c.y - q.y) := by linarith
          exact (pos_iff_pos_of_mul_pos k5).mpr kc
        · exfalso
          have h6 := hno.2 h5.symm
          have : t.or = (t.b.x - t.a.x) * (t.c.y - t.a.y) := by
            unfold T3.or ori; rw [h5]; ring
          have : (t.b.x - t.a.x) * (t.c.y - t.a.y) ≤ 0 :=
            mul_nonpos_of_nonpos_of_nonneg (by linarith) (by linarith)
          linarith
    · unfold onLeft; rw [if_pos]; · exact h1
      left; linarith
  · rw [if_pos h1, if_neg h2, if_neg]; · rfl
    rintro ⟨_, _, h5⟩; unfold onLeft at h5
    rw [if_neg] at h5; · exact h2 h5
    rintro (h6 | h6) <;> linarith [h6]
  · rw [if_neg h1, if_pos h2, if_neg]; · rfl
    rintro ⟨_, h5, _⟩; exact h1 (onLeft_nonneg h5)
  · exfalso
    push Not at h1 h2
    have k1 : ori t.c t.a q * (q.y - t.b.y) ≤ 0 :=
      mul_nonpos_of_nonpos_of_nonneg h2 (by linarith)
    have k2 : ori t.b t.c q * (q.y - t.a.y) ≤ 0 :=
      mul_nonpos_of_nonpos_of_nonneg h1.le (by linarith)
    have k3 : 0 < ori t.a t.b q := by linarith
    have k4 : 0 < ori t.a t.b q * (t.c.y - q.y) := mul_pos k3 (by linarith)
    linarith

private theorem not_half_of_all_above (t : T3) (h : 0 < t.or) (q : P2) (ha : q.y < t.a.y)
    (hb : q.y < t.b.y) (hc : q.y < t.c.y) : ¬ HalfOpen t q := by
  rintro ⟨h1, h2, h3⟩
  have h1 := onLeft_nonneg h1
  have h2 := onLeft_nonneg h2
  have h3 := onLeft_nonneg h3
  have hy := ytot t.a t.b t.c q
  have hs := ori_sum t.a t.b t.c q
  change _ = t.or at hs
  have k1 := mul_nonneg h1 (show 0 ≤ t.c.y - q.y by linarith)
  have k2 := mul_nonneg h2 (show 0 ≤ t.a.y - q.y by linarith)
  have k3 := mul_nonneg h3 (show 0 ≤ t.b.y - q.y by linarith)
  have m1 : ori t.a t.b q * (t.c.y - q.y) = 0 := by linarith
  have m2 : ori t.b t.c q * (t.a.y - q.y) = 0 := by linarith
  have m3 : ori t.c t.a q * (t.b.y - q.y) = 0 := by linarith
  have n1 := (mul_eq_zero.mp m1).resolve_right (by linarith)
  have n2 := (mul_eq_zero.mp m2).resolve_right (by linarith)
  have n3 := (mul_eq_zero.mp m3).resolve_right (by linarith)
  linarith

private theorem not_half_of_all_below (t : T3) (h : 0 < t.or) (q : P2) (ha : t.a.y ≤ q.y)
    (hb : t.b.y ≤ q.y) (hc : t.c.y ≤ q.y) : ¬ HalfOpen t q := by
  rintro ⟨g1, g2, g3⟩
  have h1 := onLeft_nonneg g1
  have h2 := onLeft_nonneg g2
  have h3 := onLeft_nonneg g3
  have hy := ytot t.a t.b t.c q
  have hs := ori_sum t.a t.b t.c q
  change _ = t.or at hs
  have k1 := mul_nonneg h1 (show 0 ≤ q.y - t.c.y by linarith)
  have k2 := mul_nonneg h2 (show 0 ≤ q.y - t.a.y by linarith)
  have k3 := mul_nonneg h3 (show 0 ≤ q.y - t.b.y by linarith)
  have m1 : ori t.a t.b q * (q.y - t.c.y) = 0 := by linarith
  have m2 : ori t.b t.c q * (q.y - t.a.y) = 0 := by linarith
  have m3 : ori t.c t.a q * (q.y - t.b.y) = 0 := by linarith
  -- some weight is positive; its vertex is at height q.y and the edges there are not owned
  have tech : ∀ u v w : P2, 0 < ori u v w → u.y ≤ q.y → v.y ≤ q.y → w.y = q.y →
      ori u v q * (q.y - w.y) = 0 → onLeft v w q → onLeft w u q → ori v w q * (q.y - u.y) = 0 →
      ori w u q * (q.y - v.y) = 0 → 0 < ori u v q → False := by
    intro u v w ho hu hv hw _ l1 l2 z1 z2 _
    -- edges v w and w u
    by_cases hu' : u.y = q.y
    · by_cases hv' : v.y = q.y
      · have : ori u v w = 0 := by unfold ori; rw [hu', hv', hw]; ring
        linarith
      · have hv'' : v.y < q.y := lt_of_le_of_ne hv hv'
        have z : ori w u q = 0 := (mul_eq_zero.mp z2).resolve_right (by linarith)
        -- w u horizontal at top; v below: u.x < w.x? edge w→u must be owned for ori = 0
        unfold onLeft at l2
        rw [z] at l2
        split at l2
        · rename_i hown
          rcases hown with h5 | ⟨_, h5⟩
          · linarith
          · have : ori u v w = (w.x - u.x) * (u.y - v.y) := by unfold ori; rw [hw, hu']; ring
            have : (w.x - u.x) * (u.y - v.y) ≤ 0 :=
              mul_nonpos_of_nonpos_of_nonneg (by linarith) (by linarith)
            linarith
        · linarith
    · have hu'' : u.y < q.y := lt_of_le_of_ne hu hu'
      have z : ori v w q = 0 := (mul_eq_zero.mp z1).resolve_right (by linarith)
      by_cases hv' : v.y = q.y
      · unfold onLeft at l1
        rw [z] at l1
        split at l1
        · rename_i hown
          rcases hown with h5 | ⟨_, h5⟩
          · linarith
          · have : ori u v w = (v.x - w.x) * (w.y - u.y) := by unfold ori; rw [hw, hv']; ring
            have : (v.x - w.x) * (w.y - u.y) ≤ 0 :=
              mul_nonpos_of_nonpos_of_nonneg (by linarith) (by linarith)
            linarith
        · linarith
      · have hv'' : v.y < q.y := lt_of_le_of_ne hv hv'
        have z' : ori w u q = 0 := (mul_eq_zero.mp z2).resolve_right (by linarith)
        unfold onLeft at l2
        rw [z'] at l2
        split at l2
        · rename_i hown
          rcases hown with h5 | ⟨h5, _⟩ <;> linarith
        · linarith
  rcases h1.lt_or_eq with p | p
  · have hcy : t.c.y = q.y := by
      have := (mul_eq_zero.mp m1).resolve_left p.ne'; linarith
    exact tech t.a t.b t.c h ha hb hcy m1 g2 g3 m2 m3 p
  · rcases h2.lt_or_eq with p2 | p2
    · have hay : t.a.y = q.y := by
        have := (mul_eq_zero.mp m2).resolve_left p2.ne'; linarith
      exact tech t.b t.c t.a (by rw [ori_rot]; exact h) hb hc hay m2 g3 g1 m3 m1 p2
    · have p3 : 0 < ori t.c t.a q := by linarith
      have hby : t.b.y = q.y := by
        have := (mul_eq_zero.mp m3).resolve_left p3.ne'; linarith
      exact tech t.c t.a t.b (by rw [ori_rot']; exact h) hc ha hby m3 g1 g2 m1 m2 p3

/-- The crossing number of a counterclockwise triangle is the indicator of its half-open
version. -/
theorem esum_cr (t : T3) (h : 0 < t.or) (q : P2) :
    esum (cr q) t = if HalfOpen t q then 1 else 0 := by
  have rotate : ∀ t : T3, (esum (cr q) t.rot = if HalfOpen t.rot q then 1 else 0) →
      esum (cr q) t = if HalfOpen t q then 1 else 0 := by
    intro t ht
    rw [esum_rot] at ht
    rw [ht]
    simp only [HalfOpen.rot]
  have hr : 0 < t.rot.or := by rw [t.rot_or]; exact h
  have hrr : 0 < t.rot.rot.or := by rw [t.rot.rot_or]; exact hr
  by_cases ha : t.a.y ≤ q.y <;> by_cases hb : t.b.y ≤ q.y <;> by_cases hc : t.c.y ≤ q.y
  · rw [if_neg (not_half_of_all_below t h q ha hb hc)]
    have z : ∀ u v : P2, u.y ≤ q.y → v.y ≤ q.y → cr q u v = 0 := by
      intro u v hu hv
      unfold cr
      rw [if_neg (by rintro ⟨_, h1, _⟩; linarith), if_neg (by rintro ⟨_, h1, _⟩; linarith)]; rfl
    unfold esum; rw [z _ _ ha hb, z _ _ hb hc, z _ _ hc ha]; rfl
  · exact cr_case_two t h q ha hb (not_le.mp hc)
  · exact rotate _ (rotate _ (cr_case_two t.rot.rot hrr q hc ha (not_le.mp hb)))
  · exact cr_case_one t h q ha (not_le.mp hb) (not_le.mp hc)
  · exact rotate _ (cr_case_two t.rot hr q hb hc (not_le.mp ha))
  · exact rotate _ (cr_case_one t.rot hr q hb (not_le.mp hc) (not_le.mp ha))
  · exact rotate _ (rotate _ (cr_case_one t.rot.rot hrr q hc (not_le.mp ha) (not_le.mp hb)))
  · rw [if_neg (not_half_of_all_above t h q (not_le.mp ha) (not_le.mp hb) (not_le.mp hc))]
    have z : ∀ u v : P2, q.y < u.y → q.y < v.y → cr q u v = 0 := by
      intro u v hu hv
      unfold cr
      rw [if_neg (by rintro ⟨h1, _, _⟩; linarith), if_neg (by rintro ⟨h1, _, _⟩; linarith)]; rfl
    unfold esum
    rw [z _ _ (not_le.mp ha) (not_le.mp hb), z _ _ (not_le.mp hb) (not_le.mp hc),
      z _ _ (not_le.mp hc) (not_le.mp ha)]; rfl

/-- Sum of an edge function over all directed edges of a list of triangles. -/
def tsum (f : P2 → P2 → ℤ) (T : List T3) : ℤ := (T.map (esum f)).sum

@[simp] theorem tsum_nil (f) : tsum f [] = 0 := rfl
@[simp] theorem tsum_cons (f t T) : tsum f (t :: T) = esum f t + tsum f T := by simp [tsum]
@[simp] theorem tsum_append (f T U) : tsum f (T ++ U) = tsum f T + tsum f U := by simp [tsum]
theorem tsum_perm (f) {T U : List T3} (h : T.Perm U) : tsum f T = tsum f U :=
  (h.map _).sum_eq

/-- The chain condition: `T` has the same boundary as the single triangle `s`. -/
def Chain (s : T3) (T : List T3) : Prop := ∀ f, Anti f → tsum f T = esum f s

/-- All triangles are counterclockwise. -/
def Ccw (T : List T3) : Prop := ∀ t ∈ T, 0 < t.or

theorem tsum_cr (T : List T3) (h : Ccw T) (q : P2) :
    tsum (cr q) T = (T.countP (fun t => HalfOpen t q) : ℤ) := by
  induction T with
  | nil => rfl
  | cons t T ih =>
    rw [tsum_cons, ih (fun u hu => h u (List.mem_cons_of_mem _ hu)),
      esum_cr t (h t List.mem_cons_self), List.countP_cons]
    by_cases hq : HalfOpen t q <;> simp [hq]; ring

/-- **Partition.**  Each location belongs to exactly one half-open triangle of `T` if it
belongs to the bounding triangle, and to none otherwise. -/
theorem partition {s : T3} {T : List T3} (hs : 0 < s.or) (hT : Ccw T) (hc : Chain s T) (q : P2) :
    T.countP (fun t => HalfOpen t q) = if HalfOpen s q then 1 else 0 := by
  have h1 := hc _ (cr_anti q)
  rw [tsum_cr T hT, esum_cr s hs] at h1
  split at h1 <;> (rename_i h; simp only [h, if_true, if_false]; exact_mod_cast h1)

end Verif.Tri

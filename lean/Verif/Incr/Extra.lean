import Verif.Incr.History
import Verif.Incr.Facts

/-!
# Further helper lemmas for the property theorems
-/

namespace Verif.Incr

open Verif.Tri Verif.Spec

/-! ### Table size -/

theorem addTriangle_pm {g : Geo} {d d' : D} {t : Tri} (h : addTriangle g d t = some d') : d'.pm = d.pm := by
  unfold addTriangle at h
  cases hd : d.free with
  | nil => rw [hd] at h; cases h; rfl
  | cons i fr =>
    rw [hd] at h
    simp only at h
    split at h
    · cases h; rfl
    · cases h

theorem markFree_pm (d : D) (i : Nat) : (markFree d i).pm = d.pm := by
  unfold markFree; cases d.tris[i]? <;> rfl

theorem removeLoop_pm {g : Geo} {c : Bool} {q : Tri → Bool} {x y : Nat} : ∀ (n i : Nat) (d : D) (acc : List Tri)
    {d' : D} {acc' : List Tri}, removeLoop g c q x y n i d acc = some (d', acc') → d'.pm = d.pm := by
  intro n
  induction n with
  | zero => intro i d acc d' acc' h; simp only [removeLoop, Option.some.injEq, Prod.mk.injEq] at h; rw [← h.1]
  | succ n ih =>
    intro i d acc d' acc' h
    simp only [removeLoop] at h
    split at h
    · cases h
    · split at h
      · cases h
      · split at h
        · cases h
        · split at h
          · have := ih _ _ _ h
            rw [this]
            exact markFree_pm d _
          · exact ih _ _ _ h

theorem fillEdges_pm {g : Geo} {p : Pt} : ∀ (es : List Edge) (d : D) {d' : D}, fillEdges g p d es = some d' →
    d'.pm = d.pm := by
  intro es
  induction es with
  | nil => intro d d' h; simp only [fillEdges, Option.some.injEq] at h; rw [h]
  | cons e es ih =>
    intro d d' h
    simp only [fillEdges] at h
    split at h
    · cases ha : addTriangle g d ⟨e.1, e.2, p⟩ with
      | none => rw [ha] at h; cases h
      | some d1 => rw [ha] at h; rw [ih _ h, addTriangle_pm ha]
    · exact ih _ h

theorem earLoop_pm {g : Geo} {fl : ℚ → ℚ} {p : Pt} : ∀ (n : Nat) (d : D) (es : List Ear) {d' : D},
    earLoop g fl p n d es = some d' → d'.pm = d.pm := by
  intro n
  induction n with
  | zero =>
    intro d es d' h
    simp only [earLoop] at h
    cases he : es[0]? with
    | none => rw [he] at h; cases h
    | some e => rw [he] at h; exact addTriangle_pm h
  | succ n ih =>
    intro d es d' h
    simp only [earLoop] at h
    cases he : es[lowestEar es 0 none 0]? with
    | none => rw [he] at h; cases h
    | some e =>
      rw [he] at h
      simp only [Option.bind_eq_bind, Option.bind_some] at h
      cases ha : addTriangle g d ⟨e.a, e.b, e.c⟩ with
      | none => rw [ha] at h; cases h
      | some d1 =>
        rw [ha] at h
        simp only [Option.bind_some] at h
        cases hc : cutEar fl p es (lowestEar es 0 none 0) with
        | none => rw [hc] at h; cases h
        | some es' => rw [hc] at h; rw [ih _ _ h, addTriangle_pm ha]

theorem pmAdd_len {pm pm' : PMap} {p : Pt} {n : Nat} (h : pmAdd pm p = some (pm', n)) : pm'.length = pm.length := by
  unfold pmAdd at h
  cases hk : slotOf pm p with
  | none => rw [hk] at h; cases h
  | some k =>
    rw [hk] at h
    simp only [Option.bind_eq_bind, Option.bind_some] at h
    cases hb : pm[k]? with
    | none => rw [hb] at h; cases h
    | some b =>
      rw [hb] at h
      simp only [Option.bind_some, Option.some.injEq, Prod.mk.injEq] at h
      rw [← h.1]; simp

theorem pmRemove_len {pm pm' : PMap} {p : Pt} {n : Nat} (h : pmRemove pm p = some (pm', n)) :
    pm'.length = pm.length := by
  unfold pmRemove at h
  cases hk : slotOf pm p with
  | none => rw [hk] at h; cases h
  | some k =>
    rw [hk] at h
    simp only [Option.bind_eq_bind, Option.bind_some] at h
    cases hb : pm[k]? with
    | none => rw [hb] at h; cases h
    | some b =>
      rw [hb] at h
      simp only [Option.bind_some] at h
      cases hr : bucketRemove b p with
      | none => rw [hr] at h; cases h
      | some r =>
        rw [hr] at h
        simp only [Option.bind_some, Option.some.injEq, Prod.mk.injEq] at h
        rw [← h.1]; simp

theorem step_pmlen {g : Geo} {fl : ℚ → ℚ} {d d' : D} {o : Op} (h : step g fl d o = some d') :
    d'.pm.length = d.pm.length := by
  cases o with
  | ins p =>
    simp only [step, insert] at h
    cases h1 : pmAdd d.pm p with
    | none => rw [h1] at h; cases h
    | some r =>
      rw [h1] at h
      simp only [Option.bind_eq_bind, Option.bind_some] at h
      cases h2 : g.cell p with
      | none => rw [h2] at h; cases h
      | some c =>
        rw [h2] at h
        simp only [Option.bind_some] at h
        obtain ⟨⟨d1, acc⟩, h4, h5⟩ := Option.bind_eq_some_iff.mp h
        rw [fillEdges_pm _ _ h5, removeLoop_pm _ _ _ _ h4]
        exact pmAdd_len (n := r.2) (by simpa using h1)
  | rem p =>
    simp only [step, remove] at h
    obtain ⟨r, h1, h⟩ := Option.bind_eq_some_iff.mp h
    split at h
    · cases h
      exact pmRemove_len (n := r.2) (by simpa using h1)
    · obtain ⟨c, h2, h⟩ := Option.bind_eq_some_iff.mp h
      obtain ⟨⟨d1, acc⟩, h4, h⟩ := Option.bind_eq_some_iff.mp h
      obtain ⟨hull, h5, h⟩ := Option.bind_eq_some_iff.mp h
      rw [earLoop_pm _ _ _ h, removeLoop_pm _ _ _ _ h4]
      exact pmRemove_len (n := r.2) (by simpa using h1)

theorem run_pmlen {g : Geo} {fl : ℚ → ℚ} (ops : List Op) : ∀ {d d' : D}, run g fl d ops = some d' →
    d'.pm.length = d.pm.length := by
  induction ops with
  | nil => intro d d' h; simp only [run, List.foldlM_nil, Option.pure_def, Option.some.injEq] at h; rw [h]
  | cons o ops ih =>
    intro d d' h
    simp only [run, List.foldlM_cons] at h
    obtain ⟨d1, h1, h2⟩ := Option.bind_eq_some_iff.mp h
    rw [ih h2, step_pmlen h1]

theorem exec_pmlen {g : Geo} {fl : ℚ → ℚ} {w h : Nat} {ops : List Op} {d : D} (e : exec g fl w h ops = some d) :
    d.pm.length = 100 := by
  unfold exec at e
  obtain ⟨d1, h1, h2⟩ := Option.bind_eq_some_iff.mp e
  rw [run_pmlen ops h2]
  unfold newDelaunay at h1
  obtain ⟨d2, h3, h4⟩ := Option.bind_eq_some_iff.mp h1
  cases h4
  simp [newPointMap]

/-! ### Peak -/

theorem Hist.peak {w h ops s m} (H : Hist w h ops s m) :
    ∃ pre s' m', pre <+: ops ∧ Hist w h pre s' m' ∧ s'.dedup.card = m := by
  induction H with
  | nil => exact ⟨[], 0, 0, List.prefix_rfl, Hist.nil, by simp⟩
  | @ins ops s m p H hp hc hd ih =>
    rcases le_total m (p ::ₘ s).dedup.card with hle | hle
    · exact ⟨_, _, _, List.prefix_rfl, Hist.ins p H hp hc hd, by rw [max_eq_right hle]⟩
    · obtain ⟨pre, s', m', h1, h2, h3⟩ := ih
      exact ⟨pre, s', m', h1.trans (List.prefix_append _ _), h2, by rw [max_eq_left hle, h3]⟩
  | rem p H hm ih =>
    obtain ⟨pre, s', m', h1, h2, h3⟩ := ih
    exact ⟨pre, s', m', h1.trans (List.prefix_append _ _), h2, h3⟩

/-- A prefix of an admissible history is admissible. -/
theorem Hist.pre {w h ops s m} (H : Hist w h ops s m) : ∀ pre, pre <+: ops →
    ∃ s' m', Hist w h pre s' m' ∧ m' ≤ m := by
  induction H with
  | nil =>
    intro pre hp
    rw [List.prefix_nil] at hp
    subst hp
    exact ⟨0, 0, Hist.nil, le_rfl⟩
  | @ins ops s m p H hp hc hd ih =>
    intro pre hpre
    rcases List.prefix_concat_iff.mp hpre with rfl | h
    · exact ⟨_, _, Hist.ins p H hp hc hd, le_rfl⟩
    · obtain ⟨s', m', h1, h2⟩ := ih pre h
      exact ⟨s', m', h1, h2.trans (le_max_left _ _)⟩
  | @rem ops s m p H hm ih =>
    intro pre hpre
    rcases List.prefix_concat_iff.mp hpre with rfl | h
    · exact ⟨_, _, Hist.rem p H hm, le_rfl⟩
    · exact ih pre h

/-! ### Bounding triangle for sizes up to 13106 -/

theorem super_wide {w h : Nat} (w1 : 1 ≤ w) (h1 : 1 ≤ h) (w2 : w ≤ 13106) (h2 : h ≤ 13106) :
    newSuperTriangle w h =
      ⟨⟨((w + 1) / 2 : Nat) - 2 * (side w h : Int), ((h + 1) / 2 : Nat) - (side w h : Int)⟩,
       ⟨((w + 1) / 2 : Nat), ((h + 1) / 2 : Nat) + 2 * (side w h : Int)⟩,
       ⟨((w + 1) / 2 : Nat) + 2 * (side w h : Int), ((h + 1) / 2 : Nat) - (side w h : Int)⟩⟩ := by
  unfold newSuperTriangle side
  have hm : (if h > w then w16 (h : Int) else w16 (w : Int)) = ((max w h : Nat) : Int) := by
    split
    · rw [w16_id (by omega) (by omega)]; omega
    · rw [w16_id (by omega) (by omega)]; omega
  simp only [hm]
  generalize hM : max w h = m
  have hm1 : m ≤ 13106 := by omega
  have hm2 : 1 ≤ m := by omega
  have e1 : w16 (((w + 1) / 2 : Nat) : Int) = (((w + 1) / 2 : Nat) : Int) := w16_id (by omega) (by omega)
  have e2 : w16 (((h + 1) / 2 : Nat) : Int) = (((h + 1) / 2 : Nat) : Int) := w16_id (by omega) (by omega)
  have e3 : w16 (2 * (m : Int)) = 2 * m := w16_id (by omega) (by omega)
  rw [e1, e2, e3, w16_id (by omega) (by omega), w16_id (by omega) (by omega), w16_id (by omega) (by omega),
    w16_id (by omega) (by omega)]

/-- Every location of the image is strictly inside the bounding triangle. -/
theorem super_contains {w h : Nat} (w1 : 1 ≤ w) (h1 : 1 ≤ h) (w2 : w ≤ 13106) (h2 : h ≤ 13106)
    (two : 2 ≤ w ∨ 2 ≤ h) {q : P2} (qx : 0 ≤ q.x) (qw : q.x ≤ w) (qy : 0 ≤ q.y) (qh : q.y ≤ h) :
    Interior (newSuperTriangle w h) q := by
  rw [super_wide w1 h1 w2 h2]
  right
  have nw : w ≤ side w h := le_max_left _ _
  have nh : h ≤ side w h := le_max_right _ _
  have n2 : 2 ≤ side w h := by unfold side; omega
  generalize side w h = n at *
  generalize ha : (w + 1) / 2 = a
  generalize hb : (h + 1) / 2 = b
  have A1 : w ≤ 2 * a := by omega
  have A2 : 2 * a ≤ w + 1 := by omega
  have B1 : h ≤ 2 * b := by omega
  have B2 : 2 * b ≤ h + 1 := by omega
  have cw : (w : ℚ) ≤ n := by exact_mod_cast nw
  have ch : (h : ℚ) ≤ n := by exact_mod_cast nh
  have c2 : (2 : ℚ) ≤ n := by exact_mod_cast n2
  have cA1 : (w : ℚ) ≤ 2 * a := by exact_mod_cast A1
  have cA2 : (2 : ℚ) * a ≤ w + 1 := by exact_mod_cast A2
  have cB1 : (h : ℚ) ≤ 2 * b := by exact_mod_cast B1
  have cB2 : (2 : ℚ) * b ≤ h + 1 := by exact_mod_cast B2
  unfold area2
  simp only
  push_cast
  have n0 : (0 : ℚ) < n := by linarith
  refine ⟨?_, ?_, ?_⟩
  · have : ((a : ℚ) - (a - 2 * n)) * (q.y - (b - n)) - (b + 2 * n - (b - n)) * (q.x - (a - 2 * n)) =
        n * (2 * (q.y - b + n) - 3 * (q.x - a + 2 * n)) := by ring
    rw [this]
    exact mul_neg_of_pos_of_neg n0 (by linarith)
  · have : ((a : ℚ) + 2 * n - a) * (q.y - (b + 2 * n)) - (b - n - (b + 2 * n)) * (q.x - a) =
        n * (2 * (q.y - b - 2 * n) + 3 * (q.x - a)) := by ring
    rw [this]
    exact mul_neg_of_pos_of_neg n0 (by linarith)
  · have : ((a : ℚ) - 2 * n - (a + 2 * n)) * (q.y - (b - n)) - (b - n - (b - n)) * (q.x - (a + 2 * n)) =
        n * (-4 * (q.y - b + n)) := by ring
    rw [this]
    exact mul_neg_of_pos_of_neg n0 (by linarith)

/-! ### Point map histories -/

/-- Calls on a point map. -/
def pmStep (pm : PMap) : Op → Option PMap
  | .ins p => (pmAdd pm p).map Prod.fst
  | .rem p => (pmRemove pm p).map Prod.fst

/-- A sequence of calls on a new point map with `n` buckets. -/
def pmRun (n : Nat) (ops : List Op) : Option PMap := ops.foldlM pmStep (newPointMap n)

theorem pmRun_snoc (n : Nat) (ops : List Op) (o : Op) :
    pmRun n (ops ++ [o]) = (pmRun n ops).bind (fun pm => pmStep pm o) := by
  unfold pmRun; rw [List.foldlM_append]; simp

theorem bag_snoc (ops : List Op) (o : Op) : bag (ops ++ [o]) = (bag ops).bind (fun s => bagStep s o) := by
  unfold bag; rw [List.foldlM_append]; simp

/-- The point named by a call. -/
def Op.pt : Op → Pt
  | .ins p => p
  | .rem p => p

theorem pmRun_spec {n : Nat} (hn : 0 < n) (ops : List Op) (hh : ∀ o ∈ ops, Hashable (Op.pt o))
    (cap : ∀ pre s, pre <+: ops → bag pre = some s → ∀ p, s.count p < 65536) :
    (∀ s, bag ops = some s → ∃ pm, pmRun n ops = some pm ∧ PMRep pm (fun p => s.count p) ∧
      pmNumPoints pm = s.card) ∧ (bag ops = none → pmRun n ops = none) := by
  induction ops using List.reverseRecOn with
  | nil =>
    refine ⟨?_, by simp [bag]⟩
    intro s hs
    simp only [bag, List.foldlM_nil, Option.pure_def, Option.some.injEq] at hs
    subst hs
    exact ⟨_, rfl, by simpa using PMRep.new hn, by simp [pmNumPoints, newPointMap]⟩
  | append_singleton ops o ih =>
    obtain ⟨i1, i2⟩ := ih (fun o ho => hh o (by simp [ho])) (fun pre s hp => cap pre s (hp.trans (List.prefix_append _ _)))
    rw [bag_snoc, pmRun_snoc]
    cases hb : bag ops with
    | none => rw [i2 hb]; simp
    | some s0 =>
      obtain ⟨pm, e1, e2, e3⟩ := i1 s0 hb
      rw [e1]
      simp only [Option.bind_some]
      have ho := hh o (by simp)
      cases o with
      | ins p =>
        refine ⟨?_, by simp [bagStep]⟩
        intro s hs
        simp only [bagStep, Option.some.injEq] at hs
        have hc : s0.count p + 1 < 65536 := by
          have := cap (ops ++ [Op.ins p]) s List.prefix_rfl (by rw [bag_snoc, hb]; simpa [bagStep] using hs) p
          rw [← hs] at this
          simpa using this
        obtain ⟨pm', a1, a2, a3, -⟩ := pmAdd_spec e2 (p := p) ho hc
        refine ⟨pm', by simp [pmStep, a1], ?_, by rw [a3, e3, ← hs]; simp⟩
        have : (fun q => s.count q) = Function.update (fun q => s0.count q) p (s0.count p + 1) := by
          funext q
          rw [← hs]
          by_cases hq : q = p
          · subst hq; simp
          · rw [Function.update_of_ne hq, Multiset.count_cons_of_ne hq]
        rw [this]; exact a2
      | rem p =>
        by_cases hm : p ∈ s0
        · refine ⟨?_, by simp [bagStep, hm]⟩
          intro s hs
          simp only [bagStep, hm, if_true, Option.some.injEq] at hs
          obtain ⟨pm', a1, a2, a3, -⟩ := pmRemove_spec e2 (p := p) (Multiset.count_pos.mpr hm)
          refine ⟨pm', by simp [pmStep, a1], ?_, ?_⟩
          · have : (fun q => s.count q) = Function.update (fun q => s0.count q) p (s0.count p - 1) := by
              funext q
              rw [← hs]
              by_cases hq : q = p
              · subst hq; simp
              · rw [Function.update_of_ne hq, Multiset.count_erase_of_ne hq]
            rw [this]; exact a2
          · have := Multiset.card_pos_iff_exists_mem.mpr ⟨p, hm⟩
            rw [← hs, Multiset.card_erase_of_mem hm, Nat.pred_eq_sub_one]
            omega
        · refine ⟨by simp [bagStep, hm], fun _ => ?_⟩
          have := pmRemove_none e2 (p := p) ho.1 (Multiset.count_eq_zero.mpr hm)
          simp [pmStep, this]

end Verif.Incr

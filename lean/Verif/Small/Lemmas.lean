import Verif.Small.Model
import Verif.Float.Round
import Verif.Raster.Exact
import Verif.Alg.TriFun
import Mathlib.Algebra.Order.Field.Rat
import Mathlib.Tactic.Linarith
import Mathlib.Tactic.Ring
import Mathlib.Algebra.BigOperators.Group.List.Basic
import Mathlib.Algebra.Order.Floor.Ring

/-!
# Lemmas on the small parts
-/

namespace Verif.Small

open Verif.Raster Verif.Fit Verif.Alg Verif.Float
open Verif.Incr hiding trunc step run Entry

theorem clamp_range (x : ℚ) : 0 ≤ clamp x ∧ clamp x ≤ 1 := by
  unfold clamp
  split
  · norm_num
  · split
    · norm_num
    · constructor <;> linarith

theorem constrain_range (p : NP) : (0 ≤ (constrain p).x ∧ (constrain p).x ≤ 1) ∧ 0 ≤ (constrain p).y ∧ (constrain p).y ≤ 1 :=
  ⟨clamp_range _, clamp_range _⟩

theorem clamp_id {x : ℚ} (h : 0 ≤ x ∧ x ≤ 1) : clamp x = x := by
  unfold clamp
  rw [if_neg (by linarith [h.2]), if_neg (by linarith [h.1])]

/-! ### mutation -/

section
variable {σ : Type}

/-- A loop that may replace point `i`: `f` gives the new point, or `none` to keep it, and the next state. -/
def genStep (f : σ → NP → Option NP × σ) (st : List NP × List Mut × σ) (i : Nat) : List NP × List Mut × σ :=
  match st.1[i]? with
  | none => st
  | some old =>
    match f st.2.2 old with
    | (some new, s) => (st.1.set i new, st.2.1 ++ [⟨old, new, i⟩], s)
    | (none, s) => (st.1, st.2.1, s)

/-- After `k` iterations. -/
def after (f : σ → NP → Option NP × σ) (ps : List NP) (s : σ) (k : Nat) : List NP × List Mut × σ := (List.range k).foldl (genStep f) (ps, [], s)

theorem after_succ (f : σ → NP → Option NP × σ) (ps : List NP) (s : σ) (k : Nat) : after f ps s (k + 1) = genStep f (after f ps s k) k := by
  unfold after
  rw [List.range_succ, List.foldl_append]
  rfl

structure LoopInv (f : σ → NP → Option NP × σ) (ps : List NP) (s : σ) (k : Nat) : Prop where
  len : (after f ps s k).1.length = ps.length
  lt : ∀ m ∈ (after f ps s k).2.1, m.index < k
  sorted : ((after f ps s k).2.1.map Mut.index).Pairwise (· < ·)
  rest : ∀ i : Nat, k ≤ i → (after f ps s k).1[i]? = ps[i]?
  made : ∀ m ∈ (after f ps s k).2.1, ps[m.index]? = some m.old ∧ (f (after f ps s m.index).2.2 m.old).1 = some m.new
  hit : ∀ (i : Nat) (p q : NP), i < k → ps[i]? = some p → (f (after f ps s i).2.2 p).1 = some q →
    ⟨p, q, i⟩ ∈ (after f ps s k).2.1 ∧ (after f ps s k).1[i]? = some q
  miss : ∀ (i : Nat) (p : NP), i < k → ps[i]? = some p → (f (after f ps s i).2.2 p).1 = none →
    (∀ m ∈ (after f ps s k).2.1, m.index ≠ i) ∧ (after f ps s k).1[i]? = some p
  next : ∀ (i : Nat) (p : NP), i < k → ps[i]? = some p → (after f ps s (i + 1)).2.2 = (f (after f ps s i).2.2 p).2

theorem loopInv (f : σ → NP → Option NP × σ) (ps : List NP) (s : σ) : ∀ k, k ≤ ps.length → LoopInv f ps s k
  | 0, _ => by
    refine ⟨rfl, ?_, by simp [after], fun i _ => rfl, ?_, ?_, ?_, ?_⟩
    · intro m hm; simp [after] at hm
    · intro m hm; simp [after] at hm
    · intro i p q h; omega
    · intro i p h; omega
    · intro i p h; omega
  | k + 1, hk => by
    have J := loopInv f ps s k (by omega)
    obtain ⟨p, hp⟩ : ∃ p, ps[k]? = some p := ⟨_, List.getElem?_eq_getElem (by omega)⟩
    have hpk : (after f ps s k).1[k]? = some p := by rw [J.rest k le_rfl, hp]
    have hs : (after f ps s (k + 1)).2.2 = (f (after f ps s k).2.2 p).2 := by
      rw [after_succ]
      unfold genStep
      rw [hpk]
      simp only
      split <;> simp_all
    have hnext : ∀ (i : Nat) (p' : NP), i < k + 1 → ps[i]? = some p' → (after f ps s (i + 1)).2.2 = (f (after f ps s i).2.2 p').2 := by
      intro i p' hi hp'
      rcases Nat.lt_succ_iff_lt_or_eq.mp hi with h | rfl
      · exact J.next i p' h hp'
      · rw [hp] at hp'
        cases hp'
        exact hs
    have hlen := J.len
    have hkl : k < (after f ps s k).1.length := by omega
    cases hf : (f (after f ps s k).2.2 p).1 with
    | none =>
      have e : (after f ps s (k + 1)).1 = (after f ps s k).1 ∧ (after f ps s (k + 1)).2.1 = (after f ps s k).2.1 := by
        rw [after_succ]
        unfold genStep
        rw [hpk]
        simp only
        split
        · rename_i h; rw [h] at hf; cases hf
        · exact ⟨rfl, rfl⟩
      obtain ⟨e1, e2⟩ := e
      refine ⟨?_, ?_, ?_, ?_, ?_, ?_, ?_, hnext⟩
      · rw [e1]; exact J.len
      · rw [e2]; intro m hm; have := J.lt m hm; omega
      · rw [e2]; exact J.sorted
      · rw [e1]; intro i hi; exact J.rest i (by omega)
      · rw [e2]; exact J.made
      · rw [e1, e2]
        intro i p' q hi hp' hq
        rcases Nat.lt_succ_iff_lt_or_eq.mp hi with h | rfl
        · exact J.hit i p' q h hp' hq
        · rw [hp] at hp'; cases hp'; rw [hf] at hq; cases hq
      · rw [e1, e2]
        intro i p' hi hp' hq
        rcases Nat.lt_succ_iff_lt_or_eq.mp hi with h | rfl
        · exact J.miss i p' h hp' hq
        · rw [hp] at hp'; cases hp'
          exact ⟨fun m hm => by have := J.lt m hm; omega, hpk⟩
    | some new =>
      have e : (after f ps s (k + 1)).1 = (after f ps s k).1.set k new ∧ (after f ps s (k + 1)).2.1 = (after f ps s k).2.1 ++ [⟨p, new, k⟩] := by
        rw [after_succ]
        unfold genStep
        rw [hpk]
        simp only
        split
        · rename_i h; rw [h] at hf; cases hf; exact ⟨rfl, rfl⟩
        · rename_i h; rw [h] at hf; cases hf
      obtain ⟨e1, e2⟩ := e
      refine ⟨?_, ?_, ?_, ?_, ?_, ?_, ?_, hnext⟩
      · rw [e1, List.length_set]; exact J.len
      · rw [e2]
        intro m hm
        rcases List.mem_append.mp hm with h | h
        · have := J.lt m h; omega
        · rw [List.mem_singleton.mp h]; simp
      · rw [e2, List.map_append, List.pairwise_append]
        refine ⟨J.sorted, by simp, ?_⟩
        intro a ha b hb
        obtain ⟨m, hm, rfl⟩ := List.mem_map.mp ha
        simp only [List.map_cons, List.map_nil, List.mem_singleton] at hb
        subst hb
        exact J.lt m hm
      · rw [e1]
        intro i hi
        rw [List.getElem?_set_ne (by omega)]
        exact J.rest i (by omega)
      · rw [e2]
        intro m hm
        rcases List.mem_append.mp hm with h | h
        · exact J.made m h
        · rw [List.mem_singleton.mp h]; exact ⟨hp, hf⟩
      · rw [e1, e2]
        intro i p' q hi hp' hq
        rcases Nat.lt_succ_iff_lt_or_eq.mp hi with h | rfl
        · obtain ⟨a, b⟩ := J.hit i p' q h hp' hq
          exact ⟨List.mem_append_left _ a, by rw [List.getElem?_set_ne (by omega)]; exact b⟩
        · rw [hp] at hp'; cases hp'; rw [hf] at hq; cases hq
          exact ⟨by simp, by rw [List.getElem?_set_self hkl]⟩
      · rw [e1, e2]
        intro i p' hi hp' hq
        rcases Nat.lt_succ_iff_lt_or_eq.mp hi with h | rfl
        · obtain ⟨a, b⟩ := J.miss i p' h hp' hq
          refine ⟨?_, by rw [List.getElem?_set_ne (by omega)]; exact b⟩
          intro m hm
          rcases List.mem_append.mp hm with h' | h'
          · exact a m h'
          · rw [List.mem_singleton.mp h']; simp only; omega
        · rw [hp] at hp'; cases hp'; rw [hf] at hq; cases hq

/-- The new point of gaussian.go 17-23. -/
def gaussF (r : Source σ) (fl : ℚ → ℚ) (rate amount : ℚ) (s : σ) (old : NP) : Option NP × σ :=
  let d := r.float32 s
  if d.1 < rate then
    let a := r.norm d.2
    let b := r.norm a.2
    (some (constrain ⟨fl (old.x + fl (fl (a.1 * amount) * (1 / 2))), fl (old.y + fl (fl (b.1 * amount) * (1 / 2)))⟩), b.2)
  else (none, d.2)

/-- The new point of random.go 16-20. -/
def randF (r : Source σ) (fl : ℚ → ℚ) (rate amount : ℚ) (s : σ) (old : NP) : Option NP × σ :=
  let d := r.float64 s
  if d.1 < rate then
    let a := r.float64 d.2
    let b := r.float64 a.2
    (some (constrain ⟨fl (old.x + fl (fl (a.1 - 1 / 2) * amount)), fl (old.y + fl (fl (b.1 - 1 / 2) * amount))⟩), b.2)
  else (none, d.2)

theorem gaussian_eq (r : Source σ) (fl : ℚ → ℚ) (rate amount : ℚ) (s : σ) (ps : List NP) :
    gaussian r fl rate amount s ps = after (gaussF r fl rate amount) ps s ps.length := by
  unfold gaussian after
  congr 1
  funext st i
  unfold gaussStep genStep gaussF
  cases st.1[i]? with
  | none => rfl
  | some old =>
    simp only
    split_ifs <;> rfl

theorem randomMut_eq (r : Source σ) (fl : ℚ → ℚ) (rate amount : ℚ) (s : σ) (ps : List NP) :
    randomMut r fl rate amount s ps = after (randF r fl rate amount) ps s ps.length := by
  unfold randomMut after
  congr 1
  funext st i
  unfold randStep genStep randF
  cases st.1[i]? with
  | none => rfl
  | some old =>
    simp only
    split_ifs <;> rfl

/-! ### generator -/

theorem randomPoints_length (r : Source σ) : ∀ (n : Nat) (s : σ), (randomPoints r n s).1.length = n
  | 0, _ => rfl
  | n + 1, s => by simp [randomPoints, randomPoints_length r n s]

theorem randomPoints_range {r : Source σ} (ok : r.OK) : ∀ (n : Nat) (s : σ), ∀ p ∈ (randomPoints r n s).1, Unit01 p
  | 0, _, p, hp => by simp [randomPoints] at hp
  | n + 1, s, p, hp => by
    simp only [randomPoints, List.mem_append, List.mem_singleton] at hp
    rcases hp with h | rfl
    · exact randomPoints_range ok n s p h
    · have a := ok.float64 (randomPoints r n s).2
      have b := ok.float64 (r.float64 (randomPoints r n s).2).2
      exact ⟨⟨a.1, a.2.le⟩, b.1, b.2.le⟩


/-- `d` is the distance from `p` to a nearest point of the group that differs from `p`. -/
def Nearest (fl sq : ℚ → ℚ) (p : NP) (group : List NP) (d : ℚ) : Prop :=
  (∃ y ∈ group, y ≠ p ∧ dist fl sq y p = d) ∧ ∀ y ∈ group, y ≠ p → d ≤ dist fl sq y p

theorem dist_nonneg {fl sq : ℚ → ℚ} (hs : ∀ x, 0 ≤ sq x) (a b : NP) : 0 ≤ dist fl sq a b := hs _

theorem closest_fold {fl sq : ℚ → ℚ} (hs : ∀ x, 0 ≤ sq x) (p : NP) : ∀ (seen l : List NP) (c : NP × ℚ),
    (((∀ y ∈ seen, y = p) ∧ c.2 = -1) ∨ Nearest fl sq p seen c.2) →
    let r := l.foldl (fun c q => if q = p then c else
        let d := dist fl sq q p
        if c.2 = -1 ∨ d < c.2 then (q, d) else c) c
    ((∀ y ∈ seen ++ l, y = p) ∧ r.2 = -1) ∨ Nearest fl sq p (seen ++ l) r.2
  | seen, [], c, h => by simpa using h
  | seen, q :: l, c, h => by
    have key := closest_fold (fl := fl) hs p (seen ++ [q]) l (if q = p then c else if c.2 = -1 ∨ dist fl sq q p < c.2 then (q, dist fl sq q p) else c) ?_
    · rw [List.append_assoc, List.singleton_append] at key
      exact key
    · have hd := dist_nonneg (fl := fl) hs q p
      split
      · rename_i hq
        rcases h with ⟨h1, h2⟩ | ⟨⟨y, h1, h2, h3⟩, h4⟩
        · refine Or.inl ⟨?_, h2⟩
          intro y hy
          rcases List.mem_append.mp hy with h' | h'
          · exact h1 y h'
          · rw [List.mem_singleton.mp h', hq]
        · refine Or.inr ⟨⟨y, List.mem_append_left _ h1, h2, h3⟩, ?_⟩
          intro y hy hne
          rcases List.mem_append.mp hy with h' | h'
          · exact h4 y h' hne
          · rw [List.mem_singleton.mp h'] at hne; exact absurd hq hne
      · rename_i hq
        right
        split
        · rename_i hc
          refine ⟨⟨q, by simp, hq, rfl⟩, ?_⟩
          intro y hy hne
          rcases List.mem_append.mp hy with h' | h'
          · rcases h with ⟨h1, _⟩ | ⟨⟨y', h1, h2, h3⟩, h4⟩
            · exact absurd (h1 y h') hne
            · have := h4 y h' hne
              rcases hc with hc | hc
              · have := dist_nonneg (fl := fl) hs y' p
                rw [h3, hc] at this
                norm_num at this
              · exact le_trans hc.le this
          · rw [List.mem_singleton.mp h']
        · rename_i hc
          push Not at hc
          rcases h with ⟨_, h2⟩ | ⟨⟨y, h1, h2, h3⟩, h4⟩
          · exact absurd h2 hc.1
          · refine ⟨⟨y, List.mem_append_left _ h1, h2, h3⟩, ?_⟩
            intro y hy hne
            rcases List.mem_append.mp hy with h' | h'
            · exact h4 y h' hne
            · rw [List.mem_singleton.mp h']; exact hc.2

theorem closestTo_spec {fl sq : ℚ → ℚ} (hs : ∀ x, 0 ≤ sq x) {p : NP} {group : List NP} {r : NP × ℚ} (h : closestTo fl sq p group = some r) :
    ((∀ y ∈ group, y = p) ∧ r.2 = -1) ∨ Nearest fl sq p group r.2 := by
  cases group with
  | nil => cases h
  | cons g0 gs =>
    unfold closestTo at h
    cases h
    have := closest_fold (fl := fl) hs p [] (g0 :: gs) (g0, -1) (Or.inl ⟨by simp, rfl⟩)
    simpa using this

theorem closestTo_some (fl sq : ℚ → ℚ) (p : NP) {group : List NP} (h : group ≠ []) : ∃ r, closestTo fl sq p group = some r := by
  cases group with
  | nil => exact absurd rfl h
  | cons g0 gs => exact ⟨_, rfl⟩

/-- One iteration of the spaced generator succeeds, and moves at most one point. -/
theorem spacedStep_ok {r : Source σ} (ok : r.OK) (fl sq : ℚ → ℚ) {n : Int} (hn : 1 ≤ n) (dec : ℚ) {st : List NP × ℚ × σ}
    (hl : st.1.length = n.toNat) : ∃ st', spacedStep r fl sq n dec st = some st' ∧
      (st'.1 = st.1 ∨ ∃ i p q c d, st.1[i]? = some p ∧ st'.1 = st.1.set i q ∧ Unit01 q ∧ closestTo fl sq p st.1 = some c ∧
        closestTo fl sq q st.1 = some d ∧ c.2 < d.2) := by
  have h1 : (r.intn n.toNat st.2.2).1 < st.1.length := by rw [hl]; exact ok.intn _ _ (by omega)
  have hne : st.1 ≠ [] := by intro h; rw [h] at h1; simp at h1
  obtain ⟨c, hc⟩ := closestTo_some fl sq (st.1[(r.intn n.toNat st.2.2).1]) hne
  set p := st.1[(r.intn n.toNat st.2.2).1] with hp
  have hg : st.1[(r.intn n.toNat st.2.2).1]? = some p := List.getElem?_eq_getElem h1
  set a := r.float64 (r.intn n.toNat st.2.2).2 with ha
  set b := r.float64 a.2 with hb
  obtain ⟨d, hd⟩ := closestTo_some fl sq (constrain ⟨fl (p.x + fl (fl (a.1 - 1 / 2) * st.2.1)), fl (p.y + fl (fl (b.1 - 1 / 2) * st.2.1))⟩) hne
  refine ⟨(if d.2 > c.2 then st.1.set (r.intn n.toNat st.2.2).1 (constrain ⟨fl (p.x + fl (fl (a.1 - 1 / 2) * st.2.1)), fl (p.y + fl (fl (b.1 - 1 / 2) * st.2.1))⟩) else st.1, fl (st.2.1 * dec), b.2), ?_, ?_⟩
  · unfold spacedStep
    rw [if_neg (by omega)]
    simp only [Option.bind_eq_bind, Option.bind_some, pure, hg, hc]
    rw [← ha, ← hb, hd]
    rfl
  · simp only
    split
    · rename_i hlt
      exact Or.inr ⟨_, p, _, c, d, hg, rfl, constrain_range _, hc, hd, hlt⟩
    · exact Or.inl rfl

theorem iterate_spaced {r : Source σ} (ok : r.OK) (fl sq : ℚ → ℚ) {n : Int} (hn : 1 ≤ n) (dec : ℚ) : ∀ (k : Nat) {st : List NP × ℚ × σ},
    st.1.length = n.toNat → (∀ p ∈ st.1, Unit01 p) →
    ∃ st', iterate (spacedStep r fl sq n dec) k st = some st' ∧ st'.1.length = n.toNat ∧ ∀ p ∈ st'.1, Unit01 p
  | 0, st, h1, h2 => ⟨st, rfl, h1, h2⟩
  | k + 1, st, h1, h2 => by
    obtain ⟨st', e, h3, h4⟩ := iterate_spaced ok fl sq hn dec k h1 h2
    obtain ⟨st'', e', h5⟩ := spacedStep_ok ok fl sq hn dec h3
    refine ⟨st'', by simp [iterate, e, e'], ?_, ?_⟩
    · rcases h5 with h | ⟨_, _, _, _, _, _, h, _⟩ <;> rw [h]
      · exact h3
      · rw [List.length_set]; exact h3
    · rcases h5 with h | ⟨_, _, _, _, _, _, h, hq, _⟩ <;> rw [h]
      · exact h4
      · intro x hx
        rcases List.mem_or_eq_of_mem_set hx with h' | h'
        · exact h4 x h'
        · rw [h']; exact hq

end

/-! ### colours -/

/-- Channels of a colour. -/
def chan : List (RGB → ℚ) := [RGB.r, RGB.g, RGB.b]

theorem foldl_add (fl : ℚ → ℚ) (l : List RGB) : ∀ a : Avg, l.foldl (Avg.add fl) a =
    ⟨⟨(l.map RGB.r).foldl (fun s c => fl (s + c)) a.rgb.r, (l.map RGB.g).foldl (fun s c => fl (s + c)) a.rgb.g,
      (l.map RGB.b).foldl (fun s c => fl (s + c)) a.rgb.b⟩, a.count + l.length⟩ := by
  induction l with
  | nil => intro a; rfl
  | cons c l ih =>
    intro a
    rw [List.foldl_cons, ih]
    simp only [Avg.add, List.map_cons, List.foldl_cons, List.length_cons]
    congr 1
    omega

theorem foldl_id (l : List ℚ) : ∀ a : ℚ, l.foldl (fun s c => id (s + c)) a = a + l.sum := by
  induction l with
  | nil => intro a; simp
  | cons c l ih => intro a; rw [List.foldl_cons, ih, List.sum_cons]; simp only [id]; ring

/-- Rounding errors of a sum of nonnegative numbers. -/
theorem foldl_bounds {fl : ℚ → ℚ} (R : Rnd 53 fl) {l : List ℚ} (h0 : ∀ c ∈ l, 0 ≤ c) : ∀ (a : ℚ), 0 ≤ a →
    (a + l.sum) * (1 - 1 / 2 ^ 53) ^ l.length ≤ l.foldl (fun s c => fl (s + c)) a ∧
      l.foldl (fun s c => fl (s + c)) a ≤ (a + l.sum) * (1 + 1 / 2 ^ 53) ^ l.length := by
  induction l with
  | nil => intro a _; simp
  | cons c l ih =>
    intro a ha
    have hc := h0 c (by simp)
    have hac : 0 ≤ a + c := by linarith
    have h0' : ∀ c ∈ l, 0 ≤ c := fun c hc => h0 c (by simp [hc])
    have hl : 0 ≤ l.sum := List.sum_nonneg h0'
    obtain ⟨h1, h2⟩ := ih h0' (fl (a + c)) (R.nonneg hac)
    rw [List.foldl_cons, List.sum_cons, List.length_cons]
    have e1 := R.lo hac
    have e2 := R.hi hac
    have p1 : (0 : ℚ) ≤ (1 - 1 / 2 ^ 53) ^ l.length := pow_nonneg (by norm_num) _
    have p2 : (0 : ℚ) ≤ (1 + 1 / 2 ^ 53) ^ l.length := by positivity
    constructor
    · refine le_trans ?_ h1
      rw [pow_succ (1 - 1 / 2 ^ 53 : ℚ), mul_comm ((1 - 1 / 2 ^ 53 : ℚ) ^ l.length), ← mul_assoc]
      refine mul_le_mul_of_nonneg_right ?_ p1
      have : (l.sum) * (1 - 1 / 2 ^ 53) ≤ l.sum := by nlinarith
      nlinarith
    · refine le_trans h2 ?_
      rw [pow_succ (1 + 1 / 2 ^ 53 : ℚ), mul_comm ((1 + 1 / 2 ^ 53 : ℚ) ^ l.length), ← mul_assoc]
      refine mul_le_mul_of_nonneg_right ?_ p2
      have : l.sum ≤ (l.sum) * (1 + 1 / 2 ^ 53) := by nlinarith
      nlinarith

/-! ### rendering -/

theorem addPixels_ok (fl : ℚ → ℚ) (I : Img) {qs : List (Int × Int)} (h : ∀ q ∈ qs, 0 ≤ q.1 ∧ q.1 < I.w ∧ 0 ≤ q.2 ∧ q.2 < I.h) :
    ∀ a : Avg, addPixels fl I a qs = some ((qs.map fun q => I.px q.1.toNat q.2.toNat).foldl (Avg.add fl) a) := by
  induction qs with
  | nil => intro a; rfl
  | cons q qs ih =>
    intro a
    unfold addPixels at ih ⊢
    rw [List.foldlM_cons]
    have hq : rgbAt I q.1 q.2 = some (I.px q.1.toNat q.2.toNat) := if_pos (h q (by simp))
    simp only [hq, Option.map_some, Option.bind_eq_bind, Option.bind_some]
    rw [List.map_cons, List.foldl_cons]
    exact ih (fun q hq => h q (by simp [hq])) _

/-- The pixels that decide the colour: those covered, or the clamped corners. -/
def seen (I : Img) (qs : List (Int × Int)) (ps : List Pt) : List (Int × Int) :=
  if qs = [] then ps.map fun p => (min p.x ((I.w : Int) - 1), min p.y ((I.h : Int) - 1)) else qs

theorem render_avg (fl : ℚ → ℚ) (I : Img) {qs : List (Int × Int)} {ps : List Pt}
    (h : ∀ q ∈ qs, 0 ≤ q.1 ∧ q.1 < I.w ∧ 0 ≤ q.2 ∧ q.2 < I.h) (hw : 1 ≤ I.w) (hh : 1 ≤ I.h) (hp : ∀ p ∈ ps, 0 ≤ p.x ∧ 0 ≤ p.y) :
    (addPixels fl I Avg.zero qs).bind (fun a => addCorners fl I a ps) =
      some (((seen I qs ps).map fun q => I.px q.1.toNat q.2.toNat).foldl (Avg.add fl) Avg.zero) ∧
    ∀ q ∈ seen I qs ps, 0 ≤ q.1 ∧ q.1 < I.w ∧ 0 ≤ q.2 ∧ q.2 < I.h := by
  have hc : ∀ q ∈ ps.map (fun p => (min p.x ((I.w : Int) - 1), min p.y ((I.h : Int) - 1))), 0 ≤ q.1 ∧ q.1 < I.w ∧ 0 ≤ q.2 ∧ q.2 < I.h := by
    intro q hq
    obtain ⟨p, hp', rfl⟩ := List.mem_map.mp hq
    have := hp p hp'
    simp only
    omega
  rw [addPixels_ok fl I h, Option.bind_some]
  unfold addCorners seen
  cases qs with
  | nil =>
    rw [if_pos (rfl : ([] : List (Int × Int)) = [])]
    exact ⟨addPixels_ok fl I hc _, hc⟩
  | cons q qs =>
    rw [if_neg (by rw [foldl_add]; simp [Avg.zero]), if_neg (by simp)]
    exact ⟨rfl, h⟩

/-! ### polygons -/

section
variable {α : Type}

/-- Sum of `f` over consecutive points, from `p` on. -/
def pathSum (f : α → α → ℚ) : α → List α → ℚ
  | _, [] => 0
  | p, q :: t => f p q + pathSum f q t

/-- Sum of `f` over the edges of a closed polygon, starting with the edge into the first vertex. -/
def cyc (f : α → α → ℚ) (ps : List α) : ℚ :=
  match ps.getLast? with
  | none => 0
  | some l => pathSum f l ps

theorem pathSum_snoc (f : α → α → ℚ) (r : α) : ∀ (p : α) (t : List α), pathSum f p (t ++ [r]) = pathSum f p t + f ((p :: t).getLast (by simp)) r
  | p, [] => by simp [pathSum]
  | p, q :: t => by
    rw [List.cons_append, pathSum, pathSum_snoc f r q t, pathSum]
    rw [List.getLast_cons (by simp : q :: t ≠ [])]
    ring

theorem cyc_cons (f : α → α → ℚ) (p : α) (t : List α) : cyc f (p :: t) = pathSum f p (t ++ [p]) := by
  unfold cyc
  rw [List.getLast?_eq_some_getLast (by simp : p :: t ≠ [])]
  simp only [pathSum]
  rw [pathSum_snoc]
  ring

theorem cyc_rotate1 (f : α → α → ℚ) (p : α) (t : List α) : cyc f (t ++ [p]) = cyc f (p :: t) := by
  rw [cyc_cons]
  unfold cyc
  rw [List.getLast?_concat]

theorem cyc_rotate (f : α → α → ℚ) : ∀ (n : Nat) (ps : List α), cyc f (ps.rotate n) = cyc f ps
  | 0, ps => by rw [List.rotate_zero]
  | n + 1, [] => by simp
  | n + 1, p :: t => by rw [List.rotate_cons_succ, cyc_rotate f n, cyc_rotate1]

theorem pathSum_reverse {f : α → α → ℚ} (hf : ∀ a b, f b a = - f a b) : ∀ (t : List α) (p q : α),
    pathSum f p (t ++ [q]) = - pathSum f q (t.reverse ++ [p])
  | [], p, q => by simp only [List.nil_append, List.reverse_nil, pathSum]; rw [hf]; ring
  | r :: t, p, q => by
    rw [List.cons_append, pathSum, pathSum_reverse hf t r q, List.reverse_cons, pathSum_snoc (t := t.reverse ++ [r])]
    have : (q :: (t.reverse ++ [r])).getLast (by simp) = r := by
      rw [List.getLast_cons (by simp)]; simp
    rw [this, hf p r]
    ring

theorem cyc_reverse {f : α → α → ℚ} (hf : ∀ a b, f b a = - f a b) (ps : List α) : cyc f ps.reverse = - cyc f ps := by
  cases ps with
  | nil => simp [cyc]
  | cons p t =>
    rw [List.reverse_cons, cyc_rotate1, cyc_cons, cyc_cons, pathSum_reverse hf t p p]
    ring

theorem pathSum_add (f g : α → α → ℚ) : ∀ (p : α) (t : List α), pathSum (fun a b => f a b + g a b) p t = pathSum f p t + pathSum g p t
  | _, [] => by simp [pathSum]
  | p, q :: t => by simp only [pathSum]; rw [pathSum_add f g q t]; ring

theorem pathSum_tele (h : α → ℚ) : ∀ (p : α) (t : List α), pathSum (fun a b => h a - h b) p t = h p - h ((p :: t).getLast (by simp))
  | p, [] => by simp [pathSum]
  | p, q :: t => by
    simp only [pathSum]
    rw [pathSum_tele h q t, List.getLast_cons (by simp : q :: t ≠ [])]
    ring

theorem cyc_add (f g : α → α → ℚ) (ps : List α) : cyc (fun a b => f a b + g a b) ps = cyc f ps + cyc g ps := by
  cases ps with
  | nil => simp [cyc]
  | cons p t => rw [cyc_cons, cyc_cons, cyc_cons, pathSum_add]

theorem cyc_tele (h : α → ℚ) (ps : List α) : cyc (fun a b => h a - h b) ps = 0 := by
  cases ps with
  | nil => simp [cyc]
  | cons p t =>
    rw [cyc_cons, pathSum_tele, List.getLast_cons (by simp : t ++ [p] ≠ [])]
    simp

theorem pathSum_neg (f : α → α → ℚ) : ∀ (p : α) (t : List α), pathSum (fun a b => - f a b) p t = - pathSum f p t
  | _, [] => by simp [pathSum]
  | p, q :: t => by simp only [pathSum]; rw [pathSum_neg f q t]; ring

theorem cyc_neg (f : α → α → ℚ) (ps : List α) : cyc (fun a b => - f a b) ps = - cyc f ps := by
  cases ps with
  | nil => simp [cyc]
  | cons p t => rw [cyc_cons, cyc_cons, pathSum_neg]

theorem pathSum_map {β : Type} (k : β → α) (f : α → α → ℚ) : ∀ (p : β) (t : List β), pathSum f (k p) (t.map k) = pathSum (fun a b => f (k a) (k b)) p t
  | _, [] => rfl
  | p, q :: t => by simp only [List.map_cons, pathSum]; rw [pathSum_map k f q t]

theorem cyc_map {β : Type} (k : β → α) (f : α → α → ℚ) (ps : List β) : cyc f (ps.map k) = cyc (fun a b => f (k a) (k b)) ps := by
  cases ps with
  | nil => simp [cyc]
  | cons p t =>
    rw [List.map_cons, cyc_cons, cyc_cons, ← pathSum_map k, List.map_append]
    rfl

theorem pathSum_zip (f : α → α → ℚ) (r : α) : ∀ (p : α) (t : List α), (((p :: t).zip (t ++ [r])).map fun e => f e.1 e.2).sum = pathSum f p (t ++ [r])
  | p, [] => by simp [pathSum]
  | p, q :: t => by
    rw [List.cons_append, List.zip_cons_cons, List.map_cons, List.sum_cons, pathSum_zip f r q t, pathSum]

theorem cyc_zip (f : α → α → ℚ) (ps : List α) : ((ps.zip (ps.rotate 1)).map fun e => f e.1 e.2).sum = cyc f ps := by
  cases ps with
  | nil => simp [cyc]
  | cons p t => rw [List.rotate_cons_succ, List.rotate_zero, cyc_cons, pathSum_zip]

end

/-! ### dropping repeated points -/

section
variable {α : Type} [DecidableEq α]

/-- Append unless equal to the last one. -/
def pushNew (out : List α) (q : α) : List α := if out.getLast? = some q then out else out ++ [q]

theorem pushNew_spec : ∀ (l out : List α) (ks : List Nat), ks.length = out.length → (∀ k ∈ ks, 1 ≤ k) →
    (∀ (i : Nat) a, out[i]? = some a → out[i + 1]? ≠ some a) →
    ∃ ks', ks'.length = (l.foldl pushNew out).length ∧ (∀ k ∈ ks', 1 ≤ k) ∧
      (List.zipWith List.replicate ks out).flatten ++ l = (List.zipWith List.replicate ks' (l.foldl pushNew out)).flatten ∧
      ∀ (i : Nat) a, (l.foldl pushNew out)[i]? = some a → (l.foldl pushNew out)[i + 1]? ≠ some a
  | [], out, ks, h1, h2, h3 => ⟨ks, h1, h2, by simp, h3⟩
  | q :: l, out, ks, h1, h2, h3 => by
    rw [List.foldl_cons]
    by_cases hq : out.getLast? = some q
    · have e : pushNew out q = out := if_pos hq
      rw [e]
      have hne : out ≠ [] := by rintro rfl; cases hq
      obtain ⟨o, rfl⟩ : ∃ o, out = o ++ [q] := by
        refine ⟨out.dropLast, ?_⟩
        rw [List.getLast?_eq_some_getLast hne] at hq
        rw [← Option.some.inj hq, List.dropLast_append_getLast]
      have hkne : ks ≠ [] := by rintro rfl; simp at h1
      obtain ⟨js, j, rfl⟩ : ∃ js j, ks = js ++ [j] := ⟨_, _, (List.dropLast_append_getLast hkne).symm⟩
      have hjs : js.length = o.length := by simpa using h1
      obtain ⟨ks', k1, k2, k3, k4⟩ := pushNew_spec l (o ++ [q]) (js ++ [j + 1]) (by simp [hjs]) (by
        intro k hk
        rcases List.mem_append.mp hk with h | h
        · exact h2 k (List.mem_append_left _ h)
        · rw [List.mem_singleton.mp h]; omega) h3
      refine ⟨ks', k1, k2, ?_, k4⟩
      rw [← k3, List.zipWith_append hjs, List.zipWith_append hjs]
      simp [List.replicate_succ']
    · have e : pushNew out q = out ++ [q] := if_neg hq
      rw [e]
      obtain ⟨ks', k1, k2, k3, k4⟩ := pushNew_spec l (out ++ [q]) (ks ++ [1]) (by simp [h1]) (by
        intro k hk
        rcases List.mem_append.mp hk with h | h
        · exact h2 k h
        · rw [List.mem_singleton.mp h]) (by
        intro i a ha hb
        rcases Nat.lt_trichotomy (i + 1) out.length with h | h | h
        · rw [List.getElem?_append_left (by omega)] at ha
          rw [List.getElem?_append_left h] at hb
          exact h3 i a ha hb
        · rw [List.getElem?_append_left (by omega)] at ha
          rw [List.getElem?_append_right (by omega), h, Nat.sub_self] at hb
          cases hb
          apply hq
          rw [List.getLast?_eq_getElem?]
          have : out.length - 1 = i := by omega
          rw [this, ha]
        · rw [List.getElem?_append_right (by omega)] at hb
          rw [List.getElem?_eq_none (by simp only [List.length_singleton]; omega)] at hb
          cases hb)
      refine ⟨ks', k1, k2, ?_, k4⟩
      rw [← k3, List.zipWith_append h1]
      simp

end

end Verif.Small

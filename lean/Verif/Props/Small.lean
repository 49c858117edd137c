import Verif.Small.Lemmas
import Verif.Props.Raster
import Verif.Props.Modified

/-!
# Properties of the small parts (C50-C59, C66)
-/

namespace Verif.Props

open Verif.Raster Verif.Fit Verif.Alg Verif.Float Verif.Small Verif.Spec
open Verif.Incr hiding trunc step run Entry

/-! ### C50: mutation -/

/-- A coordinate in [0, 1]. -/
def In01 (p : NP) : Prop := (0 ≤ p.x ∧ p.x ≤ 1) ∧ 0 ≤ p.y ∧ p.y ≤ 1

/-- What a caller of `Mutate` sees: the points before and after and the mutations reported, in the order of the calls. -/
structure Reported (ps ps' : List NP) (ms : List Mut) : Prop where
  /-- The number of points does not change. -/
  len : ps'.length = ps.length
  /-- Increasing indices, so at most one call per index. -/
  sorted : (ms.map Mut.index).Pairwise (· < ·)
  /-- `Old` is the value before, `New` the value after. -/
  values : ∀ m ∈ ms, ps[m.index]? = some m.old ∧ ps'[m.index]? = some m.new
  /-- Points not reported are untouched. -/
  other : ∀ i : Nat, (∀ m ∈ ms, m.index ≠ i) → ps'[i]? = ps[i]?
  /-- New points are in the unit square. -/
  range : ∀ m ∈ ms, In01 m.new

section
variable {σ : Type}

theorem reported_after {f : σ → NP → Option NP × σ} (hf : ∀ s p q, (f s p).1 = some q → In01 q) (ps : List NP) (s : σ) :
    Reported ps (after f ps s ps.length).1 (after f ps s ps.length).2.1 := by
  have J := loopInv f ps s ps.length le_rfl
  refine ⟨J.len, J.sorted, ?_, ?_, ?_⟩
  · intro m hm
    obtain ⟨h1, h2⟩ := J.made m hm
    exact ⟨h1, (J.hit m.index m.old m.new (J.lt m hm) h1 h2).2⟩
  · intro i hi
    rcases Nat.lt_or_ge i ps.length with h | h
    · have hp : ps[i]? = some ps[i] := List.getElem?_eq_getElem h
      cases hx : (f (after f ps s i).2.2 ps[i]).1 with
      | none => rw [(J.miss i _ h hp hx).2, hp]
      | some q => exact absurd rfl (hi _ (J.hit i _ q h hp hx).1)
    · exact J.rest i h
  · intro m hm
    exact hf _ _ _ (J.made m hm).2

theorem gaussF_range (r : Source σ) (fl : ℚ → ℚ) (rate amount : ℚ) (s : σ) (p q : NP) (h : (gaussF r fl rate amount s p).1 = some q) : In01 q := by
  unfold gaussF at h
  simp only at h
  split at h
  · cases h; exact constrain_range _
  · cases h

theorem randF_range (r : Source σ) (fl : ℚ → ℚ) (rate amount : ℚ) (s : σ) (p q : NP) (h : (randF r fl rate amount s p).1 = some q) : In01 q := by
  unfold randF at h
  simp only at h
  split at h
  · cases h; exact constrain_range _
  · cases h

/-- **C50**, gaussian method: the reports describe exactly what was done. -/
theorem c50_gaussian (r : Source σ) (fl : ℚ → ℚ) (rate amount : ℚ) (s : σ) (ps : List NP) :
    Reported ps (gaussian r fl rate amount s ps).1 (gaussian r fl rate amount s ps).2.1 := by
  rw [gaussian_eq]
  exact reported_after (gaussF_range r fl rate amount) ps s

/-- **C50**, random method. -/
theorem c50_random (r : Source σ) (fl : ℚ → ℚ) (rate amount : ℚ) (s : σ) (ps : List NP) :
    Reported ps (randomMut r fl rate amount s ps).1 (randomMut r fl rate amount s ps).2.1 := by
  rw [randomMut_eq]
  exact reported_after (randF_range r fl rate amount) ps s

theorem clamp_eq (x : ℚ) : clamp x = max 0 (min 1 x) := by
  unfold clamp
  split
  · rename_i h; rw [min_eq_left (le_of_lt h)]; norm_num
  · rename_i h
    rw [min_eq_right (not_lt.mp h)]
    split
    · rename_i h'; rw [max_eq_left h'.le]
    · rename_i h'; rw [max_eq_right (not_lt.mp h')]

/-- **C50**, which points are mutated (gaussian method): the random source goes through states `t 0, t 1, ...`; point `i` is mutated exactly
if the number drawn in state `t i` is below the rate, by the two gaussian numbers drawn next, and the result is cut to [0, 1]. -/
theorem c50_gaussian_draws (r : Source σ) (fl : ℚ → ℚ) (rate amount : ℚ) (s : σ) (ps : List NP) :
    ∃ t : Nat → σ, t 0 = s ∧ t ps.length = (gaussian r fl rate amount s ps).2.2 ∧ ∀ (i : Nat) p, ps[i]? = some p →
      let d := r.float32 (t i)
      let a := r.norm d.2
      let b := r.norm a.2
      (d.1 < rate → t (i + 1) = b.2 ∧ ∃ m ∈ (gaussian r fl rate amount s ps).2.1, m.index = i ∧
        m.new.x = max 0 (min 1 (fl (p.x + fl (fl (a.1 * amount) * (1 / 2))))) ∧ m.new.y = max 0 (min 1 (fl (p.y + fl (fl (b.1 * amount) * (1 / 2)))))) ∧
      (rate ≤ d.1 → t (i + 1) = d.2 ∧ ∀ m ∈ (gaussian r fl rate amount s ps).2.1, m.index ≠ i) := by
  rw [gaussian_eq]
  have J := loopInv (gaussF r fl rate amount) ps s ps.length le_rfl
  refine ⟨fun i => (after (gaussF r fl rate amount) ps s i).2.2, rfl, rfl, ?_⟩
  intro i p hp
  have hi := (List.getElem?_eq_some_iff.mp hp).1
  refine ⟨fun hd => ?_, fun hd => ?_⟩
  · have e : gaussF r fl rate amount (after (gaussF r fl rate amount) ps s i).2.2 p = _ := if_pos hd
    refine ⟨(J.next i p hi hp).trans (by rw [e]), _, (J.hit i p _ hi hp (by rw [e])).1, rfl, ?_, ?_⟩
    · exact clamp_eq _
    · exact clamp_eq _
  · have e : gaussF r fl rate amount (after (gaussF r fl rate amount) ps s i).2.2 p = _ := if_neg (not_lt.mpr hd)
    exact ⟨(J.next i p hi hp).trans (by rw [e]), (J.miss i p hi hp (by rw [e])).1⟩

/-- **C50**, which points are mutated (random method): the random source goes through states `t 0, t 1, ...`; point `i` is mutated exactly
if the number drawn in state `t i` is below the rate, by the two numbers drawn next, less 1/2, and the result is cut to [0, 1]. -/
theorem c50_random_draws (r : Source σ) (fl : ℚ → ℚ) (rate amount : ℚ) (s : σ) (ps : List NP) :
    ∃ t : Nat → σ, t 0 = s ∧ t ps.length = (randomMut r fl rate amount s ps).2.2 ∧ ∀ (i : Nat) p, ps[i]? = some p →
      let d := r.float64 (t i)
      let a := r.float64 d.2
      let b := r.float64 a.2
      (d.1 < rate → t (i + 1) = b.2 ∧ ∃ m ∈ (randomMut r fl rate amount s ps).2.1, m.index = i ∧
        m.new.x = max 0 (min 1 (fl (p.x + fl (fl (a.1 - 1 / 2) * amount)))) ∧ m.new.y = max 0 (min 1 (fl (p.y + fl (fl (b.1 - 1 / 2) * amount))))) ∧
      (rate ≤ d.1 → t (i + 1) = d.2 ∧ ∀ m ∈ (randomMut r fl rate amount s ps).2.1, m.index ≠ i) := by
  rw [randomMut_eq]
  have J := loopInv (randF r fl rate amount) ps s ps.length le_rfl
  refine ⟨fun i => (after (randF r fl rate amount) ps s i).2.2, rfl, rfl, ?_⟩
  intro i p hp
  have hi := (List.getElem?_eq_some_iff.mp hp).1
  refine ⟨fun hd => ?_, fun hd => ?_⟩
  · have e : randF r fl rate amount (after (randF r fl rate amount) ps s i).2.2 p = _ := if_pos hd
    refine ⟨(J.next i p hi hp).trans (by rw [e]), _, (J.hit i p _ hi hp (by rw [e])).1, rfl, ?_, ?_⟩
    · exact clamp_eq _
    · exact clamp_eq _
  · have e : randF r fl rate amount (after (randF r fl rate amount) ps s i).2.2 p = _ := if_neg (not_lt.mpr hd)
    exact ⟨(J.next i p hi hp).trans (by rw [e]), (J.miss i p hi hp (by rw [e])).1⟩

theorem Reported.mutates {ps ps' : List NP} {ms : List Mut} (h : Reported ps ps' ms) : Mutates Unit01 ps ps' ms :=
  ⟨h.len, h.sorted.imp (fun h => Nat.ne_of_lt h), fun m hm => (h.values m hm).1, fun m hm => (h.values m hm).2, h.other, h.range⟩

/-- The gaussian method meets what the theorems on the algorithms (C42-C49, C64) assume of a mutator. -/
theorem c50_gaussian_mutator (r : Source σ) (fl : ℚ → ℚ) (rate amount : ℚ) (s : Nat → σ) (N : Nat) :
    MutOK Unit01 N fun i ps => ((gaussian r fl rate amount (s i) ps).1, (gaussian r fl rate amount (s i) ps).2.1) :=
  fun i ps _ _ => (c50_gaussian r fl rate amount (s i) ps).mutates

/-- The random method meets it too. -/
theorem c50_random_mutator (r : Source σ) (fl : ℚ → ℚ) (rate amount : ℚ) (s : Nat → σ) (N : Nat) :
    MutOK Unit01 N fun i ps => ((randomMut r fl rate amount (s i) ps).1, (randomMut r fl rate amount (s i) ps).2.1) :=
  fun i ps _ _ => (c50_random r fl rate amount (s i) ps).mutates

end

/-- A source that counts: numbers 0, 1/8, 2/8, ..., 7/8, 0, ... -/
def counter : Source Nat where
  float32 n := ((n % 8 : Nat) / 8, n + 1)
  norm n := ((n % 8 : Nat) / 8 - 1 / 2, n + 1)
  float64 n := ((n % 8 : Nat) / 8, n + 1)
  intn k n := (n % k, n + 1)

theorem counter_ok : counter.OK := by
  refine ⟨fun s => ?_, fun n s h => Nat.mod_lt _ h⟩
  have : s % 8 < 8 := Nat.mod_lt _ (by norm_num)
  have h : ((s % 8 : Nat) : ℚ) < 8 := by exact_mod_cast this
  simp only [counter]
  constructor
  · positivity
  · linarith

/-- The first point is mutated and cut at 0, the last is mutated, the others are kept. -/
example : gaussian counter id (1 / 4) 1 0 [⟨0, 0⟩, ⟨1 / 2, 1 / 2⟩, ⟨1, 1 / 2⟩, ⟨1, 1⟩, ⟨1, 1⟩, ⟨1, 1⟩, ⟨1, 1 / 3⟩] =
    ([⟨0, 0⟩, ⟨1 / 2, 1 / 2⟩, ⟨1, 1 / 2⟩, ⟨1, 1⟩, ⟨1, 1⟩, ⟨1, 1⟩, ⟨13 / 16, 5 / 24⟩],
      [⟨⟨0, 0⟩, ⟨0, 0⟩, 0⟩, ⟨⟨1, 1 / 3⟩, ⟨13 / 16, 5 / 24⟩, 6⟩], 11) := by decide +kernel

/-! ### C51: generators -/

section
variable {σ : Type}

/-- **C51**, random generator: `n` points in the unit square (none for negative `n`). -/
theorem c51_random {r : Source σ} (ok : r.OK) (n : Int) (s : σ) :
    (genRandom r n s).length = n.toNat ∧ ∀ p ∈ genRandom r n s, In01 p :=
  ⟨randomPoints_length r _ s, fun p hp => randomPoints_range ok _ s p hp⟩

/-- **C51**, spaced generator: for `n ≥ 1` it ends without panic with `n` points in the unit square; any rounding, square root and `decrement`. -/
theorem c51_spaced {r : Source σ} (ok : r.OK) (fl sq : ℚ → ℚ) (iterations : Nat) (dec : ℚ) {n : Int} (hn : 1 ≤ n) (s : σ) :
    ∃ out, genSpaced r fl sq iterations dec n s = some out ∧ out.length = n.toNat ∧ ∀ p ∈ out, In01 p := by
  obtain ⟨st, e, h1, h2⟩ := iterate_spaced ok fl sq hn dec iterations (st := ((randomPoints r n.toNat s).1, 1, (randomPoints r n.toNat s).2))
    (randomPoints_length r _ s) (randomPoints_range ok _ s)
  exact ⟨st.1, by unfold genSpaced; simp only; rw [e]; rfl, h1, h2⟩

/-- With no point and at least one iteration the spaced generator panics. -/
theorem c51_spaced_empty (r : Source σ) (fl sq : ℚ → ℚ) (iterations : Nat) (h : 1 ≤ iterations) (dec : ℚ) {n : Int} (hn : n ≤ 0) (s : σ) :
    genSpaced r fl sq iterations dec n s = none := by
  have hs : ∀ st, spacedStep r fl sq n dec st = none := fun st => by unfold spacedStep; rw [if_pos hn]; rfl
  unfold genSpaced
  obtain ⟨k, rfl⟩ := Nat.exists_eq_add_of_le h
  rw [Nat.add_comm]
  simp only [iterate]
  rw [show spacedStep r fl sq n dec = fun _ => none from funext hs]
  cases iterate (fun _ => none) k ((randomPoints r n.toNat s).1, (1 : ℚ), (randomPoints r n.toNat s).2) <;> rfl

/-- Without iterations it is the random generator. -/
theorem c51_spaced_zero (r : Source σ) (fl sq : ℚ → ℚ) (dec : ℚ) (n : Int) (s : σ) : genSpaced r fl sq 0 dec n s = some (genRandom r n s) := rfl

/-! ### C66: the spaced generator spreads points -/

/-- **C66**: one iteration of the spaced generator either keeps all points or moves one point `p` to a point `q` that is farther from every
other point (except points equal to `q`) than `p` was from some point. -/
theorem c66_spaced_step {r : Source σ} (ok : r.OK) (fl : ℚ → ℚ) {sq : ℚ → ℚ} (hs : ∀ x, 0 ≤ sq x) {n : Int} (hn : 1 ≤ n) (dec : ℚ)
    {st : List NP × ℚ × σ} (hl : st.1.length = n.toNat) :
    ∃ st', spacedStep r fl sq n dec st = some st' ∧ (st'.1 = st.1 ∨ ∃ i p q, st.1[i]? = some p ∧ st'.1 = st.1.set i q ∧ In01 q ∧
      ∀ y ∈ st.1, y ≠ q → (∀ x ∈ st.1, x = p) ∨ ∃ x ∈ st.1, x ≠ p ∧ dist fl sq x p < dist fl sq y q) := by
  obtain ⟨st', e, h⟩ := spacedStep_ok ok fl sq hn dec hl
  refine ⟨st', e, ?_⟩
  rcases h with h | ⟨i, p, q, c, d, h1, h2, h3, h4, h5, h6⟩
  · exact Or.inl h
  · refine Or.inr ⟨i, p, q, h1, h2, h3, ?_⟩
    intro y hy hne
    rcases closestTo_spec hs h4 with ⟨h7, _⟩ | ⟨⟨x, x1, x2, x3⟩, _⟩
    · exact Or.inl h7
    · right
      rcases closestTo_spec hs h5 with ⟨h8, _⟩ | ⟨_, h8⟩
      · exact absurd (h8 y hy) hne
      · exact ⟨x, x1, x2, by rw [x3]; exact lt_of_lt_of_le h6 (h8 y hy hne)⟩

/-- Square of the distance of two points. -/
def sqDist (a b : NP) : ℚ := (a.x - b.x) ^ 2 + (a.y - b.y) ^ 2

/-- `Dist` is the distance, up to `2^-49` of its square. -/
theorem c66_dist {fl sq : ℚ → ℚ} (R : Rnd 53 fl) (Q : SqrtOK sq) (a b : NP) :
    0 ≤ dist fl sq a b ∧ |dist fl sq a b ^ 2 - sqDist a b| ≤ sqDist a b / 2 ^ 49 := by
  refine ⟨Q.nonneg _, ?_⟩
  have one : ∀ d : ℚ, d ^ 2 * (1 - 1 / 2 ^ 51) ≤ fl (fl d * fl d) ∧ fl (fl d * fl d) ≤ d ^ 2 * (1 + 1 / 2 ^ 51) := by
    intro d
    have e1 := R.err d
    have e2 := R.err (fl d * fl d)
    rw [abs_of_nonneg (mul_self_nonneg (fl d))] at e2
    obtain ⟨e2, e3⟩ := abs_le.mp e2
    have h1 : |fl d| ≤ |d| * (1 + 1 / 2 ^ 53) := by
      have := abs_sub_abs_le_abs_sub (fl d) d
      linarith
    have h2 : |d| * (1 - 1 / 2 ^ 53) ≤ |fl d| := by
      have := abs_sub_abs_le_abs_sub d (fl d)
      rw [abs_sub_comm] at this
      linarith
    have h3 : fl d * fl d ≤ (|d| * (1 + 1 / 2 ^ 53)) ^ 2 := by
      rw [← abs_mul_abs_self (fl d), ← pow_two]
      exact pow_le_pow_left₀ (abs_nonneg _) h1 2
    have h4 : (|d| * (1 - 1 / 2 ^ 53)) ^ 2 ≤ fl d * fl d := by
      rw [← abs_mul_abs_self (fl d), ← pow_two]
      exact pow_le_pow_left₀ (by positivity) h2 2
    rw [mul_pow, sq_abs] at h3 h4
    have hd := sq_nonneg d
    generalize d ^ 2 = D at *
    generalize fl d * fl d = E at *
    constructor
    · norm_num at *
      linarith
    · norm_num at *
      linarith
  unfold dist sqDist
  simp only
  obtain ⟨x1, x2⟩ := one (a.x - b.x)
  obtain ⟨y1, y2⟩ := one (a.y - b.y)
  have hx := sq_nonneg (a.x - b.x)
  have hy := sq_nonneg (a.y - b.y)
  generalize (a.x - b.x) ^ 2 = X at *
  generalize (a.y - b.y) ^ 2 = Y at *
  generalize fl (fl (a.x - b.x) * fl (a.x - b.x)) = U at *
  generalize fl (fl (a.y - b.y) * fl (a.y - b.y)) = V at *
  have hU : 0 ≤ U := by norm_num at x1; linarith
  have hV : 0 ≤ V := by norm_num at y1; linarith
  have e := R.err (U + V)
  rw [abs_of_nonneg (add_nonneg hU hV)] at e
  obtain ⟨s1, s2⟩ := abs_le.mp e
  have hW : 0 ≤ fl (U + V) := by norm_num at s1; linarith
  obtain ⟨q1, q2⟩ := Q.err _ hW
  generalize fl (U + V) = W at *
  generalize sq W ^ 2 = Z at *
  rw [abs_le]
  constructor
  · norm_num at *
    linarith
  · norm_num at *
    linarith

/-- **C66**, in terms of distances: an iteration that moves a point `p` to `q` leaves every other point (except points equal to `q`) at least as
far from `q` as some point was from `p`, up to `2^-47` of the squared distance. -/
theorem c66_distance {r : Source σ} (ok : r.OK) {fl sq : ℚ → ℚ} (R : Rnd 53 fl) (Q : SqrtOK sq) {n : Int} (hn : 1 ≤ n) (dec : ℚ)
    {st : List NP × ℚ × σ} (hl : st.1.length = n.toNat) :
    ∃ st', spacedStep r fl sq n dec st = some st' ∧ (st'.1 = st.1 ∨ ∃ i p q, st.1[i]? = some p ∧ st'.1 = st.1.set i q ∧ In01 q ∧
      ∀ y ∈ st.1, y ≠ q → (∀ x ∈ st.1, x = p) ∨ ∃ x ∈ st.1, x ≠ p ∧ sqDist x p ≤ sqDist y q * (1 + 1 / 2 ^ 47)) := by
  obtain ⟨st', e, h⟩ := c66_spaced_step ok fl Q.nonneg hn dec hl
  refine ⟨st', e, h.imp id ?_⟩
  rintro ⟨i, p, q, h1, h2, h3, h4⟩
  refine ⟨i, p, q, h1, h2, h3, fun y hy hne => (h4 y hy hne).imp id ?_⟩
  rintro ⟨x, x1, x2, x3⟩
  refine ⟨x, x1, x2, ?_⟩
  obtain ⟨n1, d1⟩ := c66_dist R Q x p
  obtain ⟨n2, d2⟩ := c66_dist R Q y q
  have := pow_le_pow_left₀ n1 x3.le 2
  have a1 := (abs_le.mp d1).1
  have a2 := (abs_le.mp d2).2
  have p1 : 0 ≤ sqDist x p := by unfold sqDist; positivity
  have p2 : 0 ≤ sqDist y q := by unfold sqDist; positivity
  generalize sqDist x p = A at *
  generalize sqDist y q = B at *
  norm_num at *
  linarith

end

example : dist (rne 53) sqrt64 ⟨0, 1 / 2⟩ ⟨3 / 8, 1⟩ = 5 / 8 := by decide +kernel

/-- The exception is needed: a point can be moved onto another one.  Three points, the first is moved to the corner (1, 1), where the second is. -/
theorem c66_spaced_coincide : ∃ (r : Source Nat) (st' : List NP × ℚ × Nat), r.OK ∧
    spacedStep r id id 3 1 ([⟨1 / 2, 1 / 2⟩, ⟨1, 1⟩, ⟨1 / 2, 5 / 8⟩], 8, 0) = some st' ∧ st'.1 = [⟨1, 1⟩, ⟨1, 1⟩, ⟨1 / 2, 5 / 8⟩] := by
  refine ⟨⟨fun n => (0, n), fun n => (0, n), fun n => (7 / 8, n), fun _ n => (0, n)⟩, ([⟨1, 1⟩, ⟨1, 1⟩, ⟨1 / 2, 5 / 8⟩], 8, 0),
    ⟨fun s => by norm_num, fun n s h => h⟩, ?_, ?_⟩
  · decide +kernel
  · rfl

example : (genSpaced counter id id 3 (1 / 2) 3 0).map List.length = some 3 := by
  obtain ⟨out, h, h', _⟩ := c51_spaced counter_ok id id 3 (1 / 2) (n := 3) (by norm_num) 0
  rw [h]
  exact congrArg some h'

/-! ### C52: point groups -/

/-- `Set` panics exactly on different lengths. -/
theorem c52_set_panics (m : Mem) (p other : Slice) : m.setGroup p other = none ↔ p.len ≠ other.len := by
  unfold Mem.setGroup
  split <;> simp_all

/-- An assignment to a point of a group: it panics exactly if the index is out of range, changes that point of the group and nothing else. -/
theorem c52_write (m : Mem) (s : Slice) (i : Nat) (v : NP) :
    (m.write s i v = none ↔ s.len ≤ i) ∧ ∀ m', m.write s i v = some m' → m'.read s = (m.read s).set i v ∧
      ∀ a j, a ≠ s.arr ∨ j < s.off ∨ s.off + s.len ≤ j → m'.cell a j = m.cell a j := by
  unfold Mem.write
  split
  · rename_i h
    refine ⟨by simp; omega, ?_⟩
    rintro m' ⟨⟩
    constructor
    · unfold Mem.read
      apply List.ext_getElem
      · simp
      · intro k h1 h2
        simp only [List.length_map, List.length_range] at h1
        simp only [List.getElem_map, List.getElem_range, List.getElem_set]
        by_cases hk : i = k
        · subst hk; simp
        · rw [if_neg hk, if_neg (by omega)]
    · intro a j hj
      simp only
      rw [if_neg (by rintro ⟨rfl, rfl⟩; omega)]
  · rename_i h
    exact ⟨by simp; omega, fun m' h => by cases h⟩

example : ((⟨fun _ j => ⟨j, 0⟩, 1⟩ : Mem).write ⟨0, 2, 3⟩ 1 ⟨9, 9⟩).map (fun m => m.read ⟨0, 2, 3⟩) = some [⟨2, 0⟩, ⟨9, 9⟩, ⟨4, 0⟩] := by decide +kernel

/-- The built-in `copy`, for slices of any lengths: the first points of the destination get the values the source had, as many as both
have, and every other point is untouched. -/
theorem c52_builtin_copy (m : Mem) (dst src : Slice) :
    (∀ i, i < dst.len → i < src.len → (m.copy dst src).cell dst.arr (dst.off + i) = m.cell src.arr (src.off + i)) ∧
    ∀ a j, ¬ (a = dst.arr ∧ dst.off ≤ j ∧ j < dst.off + dst.len ∧ j < dst.off + src.len) → (m.copy dst src).cell a j = m.cell a j := by
  unfold Mem.copy
  constructor
  · intro i h1 h2
    simp only
    rw [if_pos ⟨trivial, by omega, by omega⟩, Nat.add_sub_cancel_left]
  · intro a j hn
    simp only
    rw [if_neg]
    rintro ⟨h1, h2, h3⟩
    exact hn ⟨h1, h2, by omega, by omega⟩

/-- **C52**, `Set`: the receiver gets the values the argument had (also if the two overlap), and every point outside the receiver is untouched. -/
theorem c52_set {m m' : Mem} {p other : Slice} (h : m.setGroup p other = some m') :
    m'.read p = m.read other ∧ (∀ a j, ¬ (a = p.arr ∧ p.off ≤ j ∧ j < p.off + p.len) → m'.cell a j = m.cell a j) ∧ m'.next = m.next := by
  unfold Mem.setGroup at h
  split at h
  · rename_i hl
    cases h
    refine ⟨?_, ?_, rfl⟩
    · unfold Mem.read Mem.copy
      rw [hl]
      apply List.map_congr_left
      intro i hi
      rw [List.mem_range] at hi
      simp only [Nat.min_self]
      rw [if_pos ⟨trivial, by omega, by omega⟩, Nat.add_sub_cancel_left]
    · intro a j hn
      unfold Mem.copy
      simp only
      rw [if_neg]
      rintro ⟨h1, h2, h3⟩
      exact hn ⟨h1, h2, by omega⟩
  · cases h

/-- Slices that exist in a memory. -/
def Live (m : Mem) (s : Slice) : Prop := s.arr < m.next

/-- **C52**, `Copy`: the copy has the values of the original, existing slices keep their values, and writing to the copy or to an existing slice
does not change the values of the other. -/
theorem c52_copy (m : Mem) {p : Slice} (hp : Live m p) :
    let r := m.copyGroup p
    r.1.read r.2 = m.read p ∧ Live r.1 r.2 ∧
    (∀ s, Live m s → r.1.read s = m.read s ∧ Live r.1 s) ∧
    (∀ s m' i v, Live m s → r.1.write r.2 i v = some m' → m'.read s = m.read s) ∧
    (∀ s m' i v, Live m s → r.1.write s i v = some m' → m'.read r.2 = m.read p) := by
  have hc : ∀ a j, a < m.next → (m.copyGroup p).1.cell a j = m.cell a j := by
    intro a j ha
    unfold Mem.copyGroup Mem.make Mem.copy
    simp only
    rw [if_neg (by rintro ⟨h, _⟩; omega), if_neg (by omega)]
  have hr : (m.copyGroup p).1.read (m.copyGroup p).2 = m.read p := by
    unfold Mem.copyGroup Mem.make Mem.copy Mem.read Live at *
    simp only
    apply List.map_congr_left
    intro i hi
    rw [List.mem_range] at hi
    rw [if_pos ⟨trivial, by omega, by omega⟩, if_neg (by omega)]
    congr 1
    omega
  have hread : ∀ s, Live m s → (m.copyGroup p).1.read s = m.read s := by
    intro s hs
    unfold Mem.read
    exact List.map_congr_left fun i _ => hc _ _ hs
  have hw : ∀ (k m' : Mem) (s t : Slice) i v, s.arr ≠ t.arr → k.write s i v = some m' → m'.read t = k.read t := by
    intro k m' s t i v hne h
    unfold Mem.write at h
    split at h
    · cases h
      unfold Mem.read
      apply List.map_congr_left
      intro i _
      simp only
      rw [if_neg (by rintro ⟨h, _⟩; exact hne h.symm)]
    · cases h
  have ha : (m.copyGroup p).2.arr = m.next := rfl
  refine ⟨hr, ?_, fun s hs => ⟨hread s hs, Nat.lt_succ_of_lt hs⟩, ?_, ?_⟩
  · show m.next < m.next + 1
    omega
  · intro s m' i v hs h
    rw [hw _ _ _ s _ _ (by rw [ha]; unfold Live at hs; omega) h, hread s hs]
  · intro s m' i v hs h
    rw [hw _ _ _ (m.copyGroup p).2 _ _ (by rw [ha]; unfold Live at hs; omega) h, hr]

/-- Overlapping slices of one array: the receiver gets the old values of the argument. -/
example : ((⟨fun _ j => ⟨j, 0⟩, 1⟩ : Mem).setGroup ⟨0, 1, 3⟩ ⟨0, 0, 3⟩).map (fun m => m.read ⟨0, 0, 4⟩) = some [⟨0, 0⟩, ⟨0, 0⟩, ⟨1, 0⟩, ⟨2, 0⟩] := by
  decide +kernel

example : Live (⟨fun _ j => ⟨j, 0⟩, 1⟩ : Mem) ⟨0, 1, 3⟩ := by unfold Live; decide

/-! ### C55: average colour -/

/-- Arithmetic mean. -/
def avgOf (l : List ℚ) : ℚ := l.sum / l.length

/-- The channels of a colour. -/
def channels : List (RGB → ℚ) := [RGB.r, RGB.g, RGB.b]

theorem avgOf_range {l : List ℚ} (hl : l ≠ []) {lo hi : ℚ} (h : ∀ c ∈ l, lo ≤ c ∧ c ≤ hi) : lo ≤ avgOf l ∧ avgOf l ≤ hi := by
  have hp : (0 : ℚ) < l.length := by exact_mod_cast List.length_pos_iff.mpr hl
  have h1 := List.card_nsmul_le_sum l lo (fun c hc => (h c hc).1)
  have h2 := List.sum_le_card_nsmul l hi (fun c hc => (h c hc).2)
  rw [nsmul_eq_mul] at h1 h2
  unfold avgOf
  exact ⟨by rw [le_div_iff₀ hp]; linarith, by rw [div_le_iff₀ hp]; linarith⟩

/-- **C55**: in exact arithmetic, `Average` is the arithmetic mean of the colours added, `Count` their number. -/
theorem c55_exact {l : List RGB} (hl : l ≠ []) :
    (l.foldl (Avg.add id) Avg.zero).count = l.length ∧
    ∃ c, (l.foldl (Avg.add id) Avg.zero).average id = some c ∧ ∀ ch ∈ channels, ch c = avgOf (l.map ch) := by
  rw [foldl_add]
  refine ⟨by simp [Avg.zero], ?_⟩
  unfold Avg.average
  simp only [foldl_id, Avg.zero, zero_add]
  rw [if_neg (by simpa using hl)]
  refine ⟨_, rfl, ?_⟩
  intro ch hch
  simp only [channels, List.mem_cons, List.not_mem_nil, or_false] at hch
  rcases hch with rfl | rfl | rfl <;> simp [avgOf]

example : ∃ c, (([⟨1, 0, 1 / 2⟩, ⟨0, 0, 1⟩, ⟨1 / 2, 0, 0⟩] : List RGB).foldl (Avg.add id) Avg.zero).average id = some c ∧
    ∀ ch ∈ channels, ch c = avgOf (([⟨1, 0, 1 / 2⟩, ⟨0, 0, 1⟩, ⟨1 / 2, 0, 0⟩] : List RGB).map ch) :=
  (c55_exact (by simp)).2

/-- **C55**: the order of the additions does not matter in exact arithmetic. -/
theorem c55_order {l l' : List RGB} (h : l.Perm l') : (l.foldl (Avg.add id) Avg.zero).average id = (l'.foldl (Avg.add id) Avg.zero).average id := by
  rw [foldl_add, foldl_add]
  simp only [foldl_id, h.length_eq, (h.map RGB.r).sum_eq, (h.map RGB.g).sum_eq, (h.map RGB.b).sum_eq]

example : (([⟨1, 0, 1 / 2⟩, ⟨0, 0, 1⟩] : List RGB).foldl (Avg.add id) Avg.zero).average id = (([⟨0, 0, 1⟩, ⟨1, 0, 1 / 2⟩] : List RGB).foldl (Avg.add id) Avg.zero).average id :=
  c55_order (List.Perm.swap _ _ _)

/-- **C55**: each channel of the mean is between the smallest and the largest value added. -/
theorem c55_range {l : List RGB} (hl : l ≠ []) {lo hi : ℚ} {ch : RGB → ℚ} (hch : ch ∈ channels) (h : ∀ c ∈ l, lo ≤ ch c ∧ ch c ≤ hi) {c : RGB}
    (hc : (l.foldl (Avg.add id) Avg.zero).average id = some c) : lo ≤ ch c ∧ ch c ≤ hi := by
  obtain ⟨_, c', e, h'⟩ := c55_exact hl
  rw [hc] at e
  cases e
  rw [h' ch hch]
  refine avgOf_range (by simpa using hl) ?_
  intro x hx
  obtain ⟨y, hy, rfl⟩ := List.mem_map.mp hx
  exact h y hy

/-- **C55** with rounding: each channel is the mean up to a factor `(1 ± 2^-53)^(n+1)`, for at most `2^53` nonnegative colours. -/
theorem c55_rounded_partial {fl : ℚ → ℚ} (R : Rnd 53 fl) {l : List RGB} (hl : l ≠ []) (hn : l.length ≤ 2 ^ 53) (h0 : ∀ c ∈ l, ∀ ch ∈ channels, 0 ≤ ch c) :
    (l.foldl (Avg.add fl) Avg.zero).count = l.length ∧
    ∃ c, (l.foldl (Avg.add fl) Avg.zero).average fl = some c ∧ ∀ ch ∈ channels,
      avgOf (l.map ch) * (1 - 1 / 2 ^ 53) ^ (l.length + 1) ≤ ch c ∧ ch c ≤ avgOf (l.map ch) * (1 + 1 / 2 ^ 53) ^ (l.length + 1) := by
  rw [foldl_add]
  refine ⟨by simp [Avg.zero], ?_⟩
  unfold Avg.average
  simp only [Avg.zero, zero_add]
  have hpos : 0 < l.length := List.length_pos_iff.mpr hl
  rw [if_neg (by omega)]
  have hf : fl ((l.length : Nat) : ℚ) = l.length := by
    have := R.int (n := (l.length : ℤ)) (by rw [abs_of_nonneg (by positivity)]; exact_mod_cast hn)
    exact_mod_cast this
  rw [hf]
  have hp : (0 : ℚ) < l.length := by exact_mod_cast hpos
  have key : ∀ ch ∈ channels, avgOf (l.map ch) * (1 - 1 / 2 ^ 53) ^ (l.length + 1) ≤ fl ((l.map ch).foldl (fun s c => fl (s + c)) 0 / l.length) ∧
      fl ((l.map ch).foldl (fun s c => fl (s + c)) 0 / l.length) ≤ avgOf (l.map ch) * (1 + 1 / 2 ^ 53) ^ (l.length + 1) := by
    intro ch hch
    have hnn : ∀ c ∈ l.map ch, 0 ≤ c := by
      intro c hc
      obtain ⟨y, hy, rfl⟩ := List.mem_map.mp hc
      exact h0 y hy ch hch
    obtain ⟨b1, b2⟩ := foldl_bounds R hnn 0 le_rfl
    rw [zero_add, List.length_map] at b1 b2
    have hs : 0 ≤ (l.map ch).sum := List.sum_nonneg hnn
    have hS : 0 ≤ (l.map ch).foldl (fun s c => fl (s + c)) 0 := le_trans (mul_nonneg hs (pow_nonneg (by norm_num) _)) b1
    have hq : 0 ≤ (l.map ch).foldl (fun s c => fl (s + c)) 0 / l.length := div_nonneg hS hp.le
    unfold avgOf
    rw [List.length_map]
    constructor
    · refine le_trans ?_ (R.lo hq)
      rw [pow_succ (1 - 1 / 2 ^ 53 : ℚ), ← mul_assoc]
      refine mul_le_mul_of_nonneg_right ?_ (by norm_num)
      rw [div_mul_eq_mul_div]
      exact div_le_div_of_nonneg_right b1 hp.le
    · refine le_trans (R.hi hq) ?_
      rw [pow_succ (1 + 1 / 2 ^ 53 : ℚ), ← mul_assoc]
      refine mul_le_mul_of_nonneg_right ?_ (by norm_num)
      rw [div_mul_eq_mul_div]
      exact div_le_div_of_nonneg_right b2 hp.le
  refine ⟨_, rfl, ?_⟩
  intro ch hch
  have := key ch hch
  simp only [channels, List.mem_cons, List.not_mem_nil, or_false] at hch
  rcases hch with rfl | rfl | rfl <;> exact this

/-- With IEEE doubles the average may leave the range of the values added: three times the grey 102/255. -/
theorem c55_range_false : ∃ c : RGB, ∃ a : RGB, ([c, c, c].foldl (Avg.add (rne 53)) Avg.zero).average (rne 53) = some a ∧ c.r < a.r ∧
    c.r = convertColor (rne 53) 102 := by
  refine ⟨⟨convertColor (rne 53) 102, 0, 0⟩, (((([⟨convertColor (rne 53) 102, 0, 0⟩, ⟨convertColor (rne 53) 102, 0, 0⟩, ⟨convertColor (rne 53) 102, 0, 0⟩] : List RGB).foldl (Avg.add (rne 53)) Avg.zero).average (rne 53)).get (by decide +kernel)), by rw [Option.some_get], ?_, rfl⟩
  decide +kernel

example : ([⟨1, 0, 1 / 2⟩, ⟨0, 0, 1⟩, ⟨1 / 2, 0, 0⟩] : List RGB).foldl (Avg.add id) Avg.zero = ⟨⟨3 / 2, 0, 3 / 2⟩, 3⟩ := by decide +kernel

/-! ### C53, C54: rendering -/

/-- All vertices in `[0, w] x [0, h]`. -/
def InBounds (w h : Nat) (ps : List Pt) : Prop := ∀ v ∈ ps, 0 ≤ v.x ∧ v.x ≤ w ∧ 0 ≤ v.y ∧ v.y ≤ h

/-- The colours that are averaged for a shape covering the pixels `qs` with the corners `ps`: those of the covered pixels or, if there are none,
of the pixels nearest to the corners. -/
def palette (I : Img) (qs : List (Int × Int)) (ps : List Pt) : List RGB :=
  if qs = [] then ps.map fun p => I.px (min p.x ((I.w : Int) - 1)).toNat (min p.y ((I.h : Int) - 1)).toNat
  else qs.map fun q => I.px q.1.toNat q.2.toNat

theorem palette_seen (I : Img) (qs : List (Int × Int)) (ps : List Pt) : (seen I qs ps).map (fun q => I.px q.1.toNat q.2.toNat) = palette I qs ps := by
  unfold seen palette
  split
  · rw [List.map_map]; rfl
  · rfl

theorem palette_ne {I : Img} {qs : List (Int × Int)} {ps : List Pt} (h : ps ≠ []) : palette I qs ps ≠ [] := by
  unfold palette
  split
  · simpa using h
  · simpa

/-- A colour that is one of the pixels of the image. -/
def PixelOf (I : Img) (c : RGB) : Prop := ∃ x y, x < I.w ∧ y < I.h ∧ c = I.px x y

theorem palette_pixels {I : Img} {qs : List (Int × Int)} {ps : List Pt} (h : ∀ q ∈ qs, IsPixel I.w I.h q) (hw : 1 ≤ I.w) (hh : 1 ≤ I.h)
    (hp : InBounds I.w I.h ps) : ∀ c ∈ palette I qs ps, PixelOf I c := by
  intro c hc
  unfold palette at hc
  split at hc
  · obtain ⟨p, hp', rfl⟩ := List.mem_map.mp hc
    have := hp p hp'
    exact ⟨_, _, by omega, by omega, rfl⟩
  · obtain ⟨q, hq, rfl⟩ := List.mem_map.mp hc
    obtain ⟨a, b, c, d⟩ := h q hq
    exact ⟨_, _, by omega, by omega, rfl⟩

theorem mapM_spec {α β : Type} {f : α → Option β} {g : α → β} : ∀ {l : List α}, (∀ a ∈ l, f a = some (g a)) → l.mapM f = some (l.map g)
  | [], _ => rfl
  | a :: l, h => by
    rw [List.mapM_cons, h a (by simp), mapM_spec (fun b hb => h b (by simp [hb]))]
    rfl

/-- The entry of a shape: normalised vertices, and the average of the palette. -/
def entry (fl : ℚ → ℚ) (I : Img) (qs : List (Int × Int)) (ps : List Pt) : List NP × Option RGB :=
  (ps.map fun p => ⟨fl (p.x / I.w), fl (p.y / I.h)⟩, ((palette I qs ps).foldl (Avg.add fl) Avg.zero).average fl)

/-- **C53**: one entry per triangle, in order; the vertices are the normalised ones, the colour is the average of the palette of the triangle, whose
colours are pixels of the image.  No panic. -/
theorem c53_triangles {fl : ℚ → ℚ} (R : Rnd 53 fl) (z : ℚ) {I : Img} (hw1 : 1 ≤ I.w) (hh1 : 1 ≤ I.h) (hw : I.w ≤ 32768) (hh : I.h ≤ 32768) {T : List Tri}
    (hT : ∀ t ∈ T, InBounds I.w I.h (vlist t)) :
    ∃ out, trianglesOnImage fl z I T = some out ∧ out.length = T.length ∧ ∀ (i : Nat) t, T[i]? = some t →
      out[i]? = some (entry fl I (DDATriangle fl z t) (vlist t)) ∧
      palette I (DDATriangle fl z t) (vlist t) ≠ [] ∧ ∀ c ∈ palette I (DDATriangle fl z t) (vlist t), PixelOf I c := by
  have hpx : ∀ t ∈ T, ∀ q ∈ DDATriangle fl z t, IsPixel I.w I.h q := fun t ht => (c29_bounds R z hw hh t (hT t ht) (bs := 1) le_rfl).2.2
  refine ⟨T.map fun t => entry fl I (DDATriangle fl z t) (vlist t), ?_, by simp, ?_⟩
  · refine mapM_spec fun t ht => ?_
    have := (render_avg fl I (ps := vlist t) (hpx t ht) hw1 hh1 (fun p hp => ⟨(hT t ht p hp).1, (hT t ht p hp).2.2.1⟩)).1
    rw [palette_seen] at this
    unfold renderTri
    rw [Option.bind_eq_bind]
    show (addPixels fl I Avg.zero (DDATriangle fl z t)).bind (fun a => (addCorners fl I a (vlist t)).bind fun a => some ((vlist t).map (toNorm fl I.w I.h), a.average fl)) = _
    rw [← Option.bind_assoc, this]
    rfl
  · intro i t hi
    have ht := List.mem_of_getElem? hi
    exact ⟨by rw [List.getElem?_map, hi]; rfl, palette_ne (by simp [vlist]), palette_pixels (hpx t ht) hw1 hh1 (hT t ht)⟩

/-- **C53** in exact arithmetic: the colour is the mean of the palette, and each channel is in the range of the image. -/
theorem c53_colour {I : Img} (hw1 : 1 ≤ I.w) (hh1 : 1 ≤ I.h) (hw : I.w ≤ 32768) (hh : I.h ≤ 32768) (z : ℚ) {t : Tri} (ht : InBounds I.w I.h (vlist t)) :
    ∃ c, renderTri id z I t = some ((vlist t).map (fun p => ⟨(p.x : ℚ) / I.w, (p.y : ℚ) / I.h⟩), some c) ∧ ∀ ch ∈ channels,
      ch c = avgOf ((palette I (DDATriangle id z t) (vlist t)).map ch) ∧
      ∀ lo hi, (∀ x y, x < I.w → y < I.h → lo ≤ ch (I.px x y) ∧ ch (I.px x y) ≤ hi) → lo ≤ ch c ∧ ch c ≤ hi := by
  obtain ⟨out, e, _, h⟩ := c53_triangles (id_rnd 53) z hw1 hh1 hw hh (T := [t]) (by intro s hs; rw [List.mem_singleton.mp hs]; exact ht)
  obtain ⟨h1, h2, h3⟩ := h 0 t rfl
  obtain ⟨_, c, e', h'⟩ := c55_exact h2
  refine ⟨c, ?_, ?_⟩
  · unfold trianglesOnImage at e
    rw [List.mapM_cons, List.mapM_nil] at e
    cases hr : renderTri id z I t with
    | none => rw [hr] at e; cases e
    | some x =>
      rw [hr] at e
      cases e
      cases h1
      unfold entry
      rw [e']
      rfl
  · intro ch hch
    refine ⟨h' ch hch, ?_⟩
    intro lo hi hr
    refine c55_range h2 hch ?_ e'
    intro x hx
    obtain ⟨a, b, ha, hb, rfl⟩ := h3 x hx
    exact hr a b ha hb

theorem count_le_one {l : List (Int × Int)} {w h : Nat} (hn : l.Nodup) (hp : ∀ q ∈ l, IsPixel w h q) : l.length ≤ w * h := by
  have hs : l.map (fun q => (q.1.toNat, q.2.toNat)) ⊆ (List.range w) ×ˢ (List.range h) := by
    intro x hx
    obtain ⟨q, hq, rfl⟩ := List.mem_map.mp hx
    obtain ⟨a, b, c, d⟩ := hp q hq
    rw [List.mem_product, List.mem_range, List.mem_range]
    omega
  have hn' : (l.map (fun q => (q.1.toNat, q.2.toNat))).Nodup := by
    refine (List.nodup_map_iff_inj_on hn).mpr ?_
    intro q hq q' hq' e
    obtain ⟨a, b, c, d⟩ := hp q hq
    obtain ⟨a', b', c', d'⟩ := hp q' hq'
    simp only [Prod.mk.injEq] at e
    apply Prod.ext <;> omega
  have := (List.subperm_of_subset hn' hs).length_le
  rw [List.length_map, List.length_product, List.length_range, List.length_range] at this
  exact this

/-- The average of at most `2^30 + 2` nonnegative colours is their mean up to a relative error of `2^-22`. -/
theorem avg_close {fl : ℚ → ℚ} (R : Rnd 53 fl) {l : List RGB} (h2 : l ≠ []) (hlen : l.length ≤ 2 ^ 30 + 2) (h0 : ∀ c ∈ l, ∀ ch ∈ channels, 0 ≤ ch c) :
    ∃ c, (l.foldl (Avg.add fl) Avg.zero).average fl = some c ∧ ∀ ch ∈ channels, |ch c - avgOf (l.map ch)| ≤ avgOf (l.map ch) / 2 ^ 22 := by
  obtain ⟨_, c, e', h'⟩ := c55_rounded_partial R h2 (by omega) h0
  refine ⟨c, e', ?_⟩
  intro ch hch
  obtain ⟨b1, b2⟩ := h' ch hch
  set k := l.length + 1 with hk
  set m := avgOf (l.map ch)
  have hm : 0 ≤ m := by
    refine (avgOf_range (lo := 0) (hi := (l.map ch).sum) (by simpa using h2) ?_).1
    intro x hx
    have hnn : ∀ x ∈ l.map ch, 0 ≤ x := by
      intro x hx
      obtain ⟨y, hy, rfl⟩ := List.mem_map.mp hx
      exact h0 y hy ch hch
    exact ⟨hnn x hx, List.single_le_sum hnn x hx⟩
  have hkq : (k : ℚ) ≤ 2 ^ 30 + 3 := by
    have : k ≤ 2 ^ 30 + 3 := by omega
    exact_mod_cast this
  have p1 : (1 : ℚ) - 1 / 2 ^ 22 ≤ (1 - 1 / 2 ^ 53) ^ k := by
    have := one_add_mul_le_pow (a := (-(1 / 2 ^ 53) : ℚ)) (by norm_num) k
    rw [← sub_eq_add_neg] at this
    refine le_trans ?_ this
    nlinarith
  have p2 : (1 + 1 / 2 ^ 53 : ℚ) ^ k ≤ 1 + 1 / 2 ^ 22 := by
    have h5 := one_add_mul_le_pow (a := (-(1 / 2 ^ 53) : ℚ)) (by norm_num) k
    have h6 : ((1 : ℚ) + 1 / 2 ^ 53) ^ k * (1 + -(1 / 2 ^ 53)) ^ k ≤ 1 := by
      rw [← mul_pow]
      exact pow_le_one₀ (by norm_num) (by norm_num)
    have h7 : (0 : ℚ) ≤ (1 + 1 / 2 ^ 53) ^ k := by positivity
    have h8 : (1 : ℚ) - 1 / 2 ^ 22 * (1 / 2 + 1 / 4) ≤ (1 + -(1 / 2 ^ 53)) ^ k := le_trans (by nlinarith) h5
    have h9 := mul_le_mul_of_nonneg_left h8 h7
    have h10 := le_trans h9 h6
    by_contra hcon
    push Not at hcon
    have h11 : (1 + 1 / 2 ^ 22 : ℚ) * (1 - 1 / 2 ^ 22 * (1 / 2 + 1 / 4)) < (1 + 1 / 2 ^ 53) ^ k * (1 - 1 / 2 ^ 22 * (1 / 2 + 1 / 4)) :=
      mul_lt_mul_of_pos_right hcon (by norm_num)
    have h12 := lt_of_lt_of_le h11 h10
    norm_num at h12
  rw [abs_le]
  constructor
  · have := mul_le_mul_of_nonneg_left p1 hm
    linarith
  · have := mul_le_mul_of_nonneg_left p2 hm
    linarith

/-- **C53** with rounding: for colours in [0, 1], the channels are the mean of the palette up to a relative error of 2^-22. -/
theorem c53_rounded_partial {fl : ℚ → ℚ} (R : Rnd 53 fl) (z : ℚ) {I : Img} (hw1 : 1 ≤ I.w) (hh1 : 1 ≤ I.h) (hw : I.w ≤ 32768) (hh : I.h ≤ 32768) {t : Tri}
    (ht : InBounds I.w I.h (vlist t)) (hI : ∀ x y, x < I.w → y < I.h → ∀ ch ∈ channels, 0 ≤ ch (I.px x y)) :
    ∃ c, renderTri fl z I t = some ((vlist t).map (fun p => ⟨fl (p.x / I.w), fl (p.y / I.h)⟩), some c) ∧ ∀ ch ∈ channels,
      |ch c - avgOf ((palette I (DDATriangle fl z t) (vlist t)).map ch)| ≤ avgOf ((palette I (DDATriangle fl z t) (vlist t)).map ch) / 2 ^ 22 := by
  obtain ⟨out, e, _, h⟩ := c53_triangles R z hw1 hh1 hw hh (T := [t]) (by intro s hs; rw [List.mem_singleton.mp hs]; exact ht)
  obtain ⟨h1, h2, h3⟩ := h 0 t rfl
  have hlen : (palette I (DDATriangle fl z t) (vlist t)).length ≤ 2 ^ 30 + 2 := by
    unfold palette
    split
    · simp [vlist]
    · rw [List.length_map]
      have hb := c29_bounds R z hw hh t ht (bs := 1) le_rfl
      have hn : (DDATriangle fl z t).Nodup := by
        have := c28_blocks (fun a b => R.mono a b) z t (bs := 1) le_rfl
        exact (this.1.nodup_iff).mp this.2
      have := count_le_one hn hb.2.2
      have h4 : I.w * I.h ≤ 32768 * 32768 := Nat.mul_le_mul hw hh
      omega
  obtain ⟨c, e', h'⟩ := avg_close R h2 hlen (by
    intro x hx ch hch
    obtain ⟨a, b, ha, hb, rfl⟩ := h3 x hx
    exact hI a b ha hb ch hch)
  refine ⟨c, ?_, h'⟩
  unfold trianglesOnImage at e
  rw [List.mapM_cons, List.mapM_nil] at e
  cases hr : renderTri fl z I t with
  | none => rw [hr] at e; cases e
  | some x =>
    rw [hr] at e
    cases e
    cases h1
    unfold entry
    rw [e']

example : ∃ c, renderTri (rne 53) 0 ⟨40, 30, fun x y => ⟨x / 40, y / 30, 1 / 2⟩⟩ ⟨⟨0, 0⟩, ⟨40, 10⟩, ⟨7, 30⟩⟩ =
    some ([⟨0, 0⟩, ⟨40, 10⟩, ⟨7, 30⟩].map (fun p : Pt => ⟨rne 53 (p.x / (40 : ℕ)), rne 53 (p.y / (30 : ℕ))⟩), some c) :=
  let ⟨c, h, _⟩ := c53_rounded_partial (rne_rnd (by norm_num)) 0 (I := ⟨40, 30, fun x y => ⟨x / 40, y / 30, 1 / 2⟩⟩) (by norm_num) (by norm_num) (by norm_num)
    (by norm_num) (t := ⟨⟨0, 0⟩, ⟨40, 10⟩, ⟨7, 30⟩⟩) (by unfold InBounds; decide)
    (by intro x y _ _; simp only [channels, List.mem_cons, List.not_mem_nil, or_false]; rintro ch (rfl | rfl | rfl) <;> positivity)
  ⟨c, h⟩

/-- A grey image. -/
def grey110 : Img := ⟨3, 3, fun _ _ => ⟨convertColor (rne 53) 110, 0, 0⟩⟩

/-- With IEEE doubles a channel may exceed the largest value of the image: a triangle that covers six pixels of one grey. -/
theorem c53_range_false : (trianglesOnImage (rne 53) 0 grey110 [⟨⟨0, 0⟩, ⟨3, 0⟩, ⟨0, 3⟩⟩]).map (fun out => out.map fun e => e.2.map fun c => decide ((grey110.px 0 0).r < c.r)) =
    some [some true] := by decide +kernel

/-- **C54**: one entry per polygon, in order; the colour is the average of the palette of the polygon, and well-defined if the polygon has a vertex. -/
theorem c54_polygons {fl : ℚ → ℚ} (R : Rnd 53 fl) (z : ℚ) {I : Img} (hw1 : 1 ≤ I.w) (hh1 : 1 ≤ I.h) (hw : I.w ≤ 32768) (hh : I.h ≤ 32768) {P : List (List Pt)}
    (hP : ∀ ps ∈ P, InBounds I.w I.h ps) :
    ∃ out, polygonsOnImage fl z I P = some out ∧ out.length = P.length ∧ ∀ (i : Nat) ps, P[i]? = some ps →
      out[i]? = some (entry fl I ((fan ps).flatMap (DDATriangle fl z)) ps) ∧
      (ps ≠ [] → palette I ((fan ps).flatMap (DDATriangle fl z)) ps ≠ []) ∧ ∀ c ∈ palette I ((fan ps).flatMap (DDATriangle fl z)) ps, PixelOf I c := by
  have hfan : ∀ ps : List Pt, ∀ t ∈ fan ps, ∀ v ∈ vlist t, v ∈ ps := by
    intro ps t ht v hv
    cases ps with
    | nil => cases ht
    | cons p0 ps =>
      unfold fan at ht
      obtain ⟨e, he, rfl⟩ := List.mem_map.mp ht
      have h1 := (List.of_mem_zip he)
      simp only [vlist, List.mem_cons, List.not_mem_nil, or_false] at hv
      rcases hv with rfl | rfl | rfl
      · exact List.mem_cons_of_mem _ (List.mem_of_mem_tail h1.2)
      · exact List.mem_cons_of_mem _ h1.1
      · simp
  have hpx : ∀ ps ∈ P, ∀ q ∈ (fan ps).flatMap (DDATriangle fl z), IsPixel I.w I.h q := by
    intro ps hps q hq
    obtain ⟨t, ht, hq⟩ := List.mem_flatMap.mp hq
    exact (c29_bounds R z hw hh t (fun v hv => hP ps hps v (hfan ps t ht v hv)) (bs := 1) le_rfl).2.2 q hq
  refine ⟨P.map fun ps => entry fl I ((fan ps).flatMap (DDATriangle fl z)) ps, ?_, by simp, ?_⟩
  · refine mapM_spec fun ps hps => ?_
    have := (render_avg fl I (ps := ps) (hpx ps hps) hw1 hh1 (fun p hp => ⟨(hP ps hps p hp).1, (hP ps hps p hp).2.2.1⟩)).1
    rw [palette_seen] at this
    unfold renderPoly
    rw [Option.bind_eq_bind]
    show (addPixels fl I Avg.zero ((fan ps).flatMap (DDATriangle fl z))).bind (fun a => (addCorners fl I a ps).bind fun a => some (ps.map (toNorm fl I.w I.h), a.average fl)) = _
    rw [← Option.bind_assoc, this]
    rfl
  · intro i ps hi
    have hps := List.mem_of_getElem? hi
    exact ⟨by rw [List.getElem?_map, hi]; rfl, palette_ne, palette_pixels (hpx ps hps) hw1 hh1 (hP ps hps)⟩

example : ∃ out, polygonsOnImage (rne 53) 0 ⟨40, 30, fun _ _ => ⟨1, 0, 1 / 2⟩⟩ [[⟨5, 0⟩, ⟨14, 3⟩, ⟨12, 11⟩, ⟨4, 12⟩], [⟨40, 30⟩], []] = some out ∧ out.length = 3 :=
  let ⟨out, h1, h2, _⟩ := c54_polygons (rne_rnd (by norm_num)) 0 (I := ⟨40, 30, fun _ _ => ⟨1, 0, 1 / 2⟩⟩) (by norm_num) (by norm_num) (by norm_num) (by norm_num)
    (P := [[⟨5, 0⟩, ⟨14, 3⟩, ⟨12, 11⟩, ⟨4, 12⟩], [⟨40, 30⟩], []]) (by unfold InBounds; decide)
  ⟨out, h1, h2⟩

/-- **C54**: in exact arithmetic the colour of a polygon with a vertex is the mean of its palette. -/
theorem c54_colour {I : Img} {qs : List (Int × Int)} {ps : List Pt} (h : ps ≠ []) :
    ∃ c, (entry id I qs ps).2 = some c ∧ ∀ ch ∈ channels, ch c = avgOf ((palette I qs ps).map ch) :=
  (c55_exact (palette_ne h)).2

/-- **C54** with rounding: for colours in [0, 1] and at most `2^30` pixels, the channels are the mean of the palette up to a relative error of 2^-22. -/
theorem c54_rounded_partial {fl : ℚ → ℚ} (R : Rnd 53 fl) {I : Img} {qs : List (Int × Int)} {ps : List Pt} (h : ps ≠ [])
    (hl : (palette I qs ps).length ≤ 2 ^ 30 + 2) (h0 : ∀ c ∈ palette I qs ps, ∀ ch ∈ channels, 0 ≤ ch c) :
    ∃ c, (entry fl I qs ps).2 = some c ∧ ∀ ch ∈ channels, |ch c - avgOf ((palette I qs ps).map ch)| ≤ avgOf ((palette I qs ps).map ch) / 2 ^ 22 :=
  avg_close R (palette_ne h) hl h0

/-- A polygon without vertices has no colour: the average is 0/0. -/
theorem c54_empty_false (fl : ℚ → ℚ) (z : ℚ) (I : Img) : polygonsOnImage fl z I [[]] = some [([], none)] := by
  rfl

example : ∀ t ∈ [tri1], InBounds 40 30 (vlist t) := by unfold InBounds; decide

/-- A triangle that covers no pixel takes the mean of its corners. -/
example : (renderTri id 0 ⟨2, 2, fun x y => ⟨x, y, 1 / 2⟩⟩ ⟨⟨0, 0⟩, ⟨2, 0⟩, ⟨1, 0⟩⟩).map Prod.snd = some (some ⟨2 / 3, 0, 1 / 2⟩) := by decide +kernel

/-! ### C56: image conversion -/

/-- The values of `RGBA()` are 16-bit, as its documentation says. -/
def Source16.OK (im : Source16) : Prop := ∀ x y, (im.at16 x y).1 ≤ 65535 ∧ (im.at16 x y).2.1 ≤ 65535 ∧ (im.at16 x y).2.2 ≤ 65535

/-- **C56**: for bounds that are not negative, `ToData` has the size of the bounds, `h` rows of `w` pixels, and each channel is the upper byte of
the 16-bit value divided by 255 (rounded), in [0, 1]. -/
theorem c56_toData {fl : ℚ → ℚ} (R : Rnd 53 fl) {im : Source16} (hx : 0 ≤ im.maxX) (hy : 0 ≤ im.maxY) :
    ∃ rows, toData fl im = some (im.maxX, im.maxY, rows) ∧ rows.length = im.maxY.toNat ∧ (∀ row ∈ rows, row.length = im.maxX.toNat) ∧
      ∀ x y : Nat, x < im.maxX → y < im.maxY → ∃ row c, rows[y]? = some row ∧ row[x]? = some c ∧
        c.r = fl (((im.at16 x y).1 / 256 : Nat) / 255) ∧ c.g = fl (((im.at16 x y).2.1 / 256 : Nat) / 255) ∧ c.b = fl (((im.at16 x y).2.2 / 256 : Nat) / 255) ∧
        (Source16.OK im → ∀ ch ∈ channels, 0 ≤ ch c ∧ ch c ≤ 1) := by
  unfold toData newData
  rw [if_neg (by omega)]
  refine ⟨_, rfl, by simp, ?_, ?_⟩
  · intro row hrow
    simp only at hrow
    obtain ⟨i, hi, rfl⟩ := List.mem_iff_getElem.mp hrow
    simp
  · intro x y hx' hy'
    have hx2 : x < im.maxX.toNat := by omega
    have hy2 : y < im.maxY.toNat := by omega
    refine ⟨_, _, (by rw [List.getElem?_mapIdx, List.getElem?_replicate_of_lt hy2]; rfl),
      (by rw [List.getElem?_mapIdx, List.getElem?_replicate_of_lt hx2]; rfl), rfl, rfl, rfl, ?_⟩
    intro ok ch hch
    obtain ⟨o1, o2, o3⟩ := ok x y
    have key : ∀ v : Nat, v ≤ 65535 → 0 ≤ fl (((v / 256 : Nat) : ℚ) / 255) ∧ fl (((v / 256 : Nat) : ℚ) / 255) ≤ 1 := by
      intro v hv
      have h1 : v / 256 ≤ 255 := by omega
      have h2 : ((v / 256 : Nat) : ℚ) ≤ 255 := by exact_mod_cast h1
      refine ⟨R.nonneg (by positivity), ?_⟩
      have := R.le_int (x := ((v / 256 : Nat) : ℚ) / 255) (n := 1) (by norm_num) (by push_cast; rw [div_le_iff₀ (by norm_num)]; linarith)
      exact_mod_cast this
    simp only [channels, List.mem_cons, List.not_mem_nil, or_false] at hch
    rcases hch with rfl | rfl | rfl
    · exact key _ o1
    · exact key _ o2
    · exact key _ o3

/-- A negative bound makes `ToData` panic (for the width: if there is a row). -/
theorem c56_negative (fl : ℚ → ℚ) (im : Source16) (h : im.maxY < 0 ∨ (0 < im.maxY ∧ im.maxX < 0)) : toData fl im = none := by
  unfold toData newData
  rw [if_pos h]
  rfl

example : (toData id ⟨2, 1, fun x _ => (65535 * x, 51 * 256 + 7, 0)⟩) = some (2, 1, [[⟨0, 1 / 5, 0⟩, ⟨1, 1 / 5, 0⟩]]) := by decide +kernel

/-! ### C57: polygon fan -/

/-- Twice the signed area of a polygon, by the shoelace formula. -/
def shoelace (ps : List (ℚ × ℚ)) : ℚ := ((ps.zip (ps.rotate 1)).map fun e => e.1.1 * e.2.2 - e.2.1 * e.1.2).sum

/-- Coordinates of an integer point. -/
def xy (p : Pt) : ℚ × ℚ := (p.x, p.y)

/-- **C57**: a polygon with `n` vertices gives `n - 2` triangles (none for `n < 3`); their vertices run against the direction of the polygon, so their
signed areas add up to minus that of the polygon. -/
theorem c57_fan (ps : List Pt) :
    (fan ps).length = ps.length - 2 ∧ ((fan ps).map fun t => shoelace ((vlist t).map xy)).sum = - shoelace (ps.map xy) := by
  have hs : ∀ qs : List Pt, shoelace (qs.map xy) = cyc (fun a b : Pt => (a.x : ℚ) * b.y - b.x * a.y) qs := by
    intro qs
    unfold shoelace
    rw [cyc_zip (fun a b : ℚ × ℚ => a.1 * b.2 - b.1 * a.2), Small.cyc_map]
    rfl
  rw [hs]
  simp only [hs]
  cases ps with
  | nil => exact ⟨rfl, by simp [fan, cyc]⟩
  | cons p0 ps =>
    constructor
    · simp only [fan, List.length_map, List.length_zip, List.length_tail, List.length_cons]
      omega
    · cases ps with
      | nil => simp [fan, cyc, pathSum]
      | cons p1 ps =>
        have key : ∀ (l : List Pt) (p : Pt), ((((p :: l).zip l).map fun e => (⟨e.2, e.1, p0⟩ : Tri)).map fun t =>
            cyc (fun a b : Pt => (a.x : ℚ) * b.y - b.x * a.y) (vlist t)).sum =
              - pathSum (fun a b : Pt => (a.x : ℚ) * b.y - b.x * a.y) p l + ((p.x : ℚ) * p0.y - p0.x * p.y) -
                ((((p :: l).getLast (by simp)).x : ℚ) * p0.y - p0.x * ((p :: l).getLast (by simp)).y) := by
          intro l
          induction l with
          | nil => intro p; simp [pathSum]
          | cons q l ih =>
            intro p
            rw [List.zip_cons_cons, List.map_cons, List.map_cons, List.sum_cons, ih q, pathSum, List.getLast_cons (by simp : q :: l ≠ [])]
            simp only [vlist, cyc, List.getLast?_cons_cons, List.getLast?_singleton, pathSum]
            ring
        show ((((p1 :: ps).zip ps).map fun e => (⟨e.2, e.1, p0⟩ : Tri)).map _).sum = _
        rw [key ps p1, cyc_cons, List.cons_append, pathSum, pathSum_snoc]
        ring

example : fan [⟨0, 0⟩, ⟨4, 0⟩, ⟨5, 3⟩, ⟨0, 4⟩] = [⟨⟨5, 3⟩, ⟨4, 0⟩, ⟨0, 0⟩⟩, ⟨⟨0, 4⟩, ⟨5, 3⟩, ⟨0, 0⟩⟩] ∧
    shoelace ([⟨0, 0⟩, ⟨4, 0⟩, ⟨5, 3⟩, ⟨0, 4⟩].map xy) = 32 := by decide +kernel

/-- So the claim with the triangles' own direction is false, by the sign: a triangle comes back reversed. -/
theorem c57_direction_false : fan [⟨0, 0⟩, ⟨4, 0⟩, ⟨0, 4⟩] = [⟨⟨0, 4⟩, ⟨4, 0⟩, ⟨0, 0⟩⟩] ∧
    shoelace ([⟨0, 0⟩, ⟨4, 0⟩, ⟨0, 4⟩].map xy) = 16 ∧ shoelace ((vlist ⟨⟨0, 4⟩, ⟨4, 0⟩, ⟨0, 0⟩⟩).map xy) = -16 := by decide +kernel

/-! ### C58: polygon area -/

/-- The term of one edge. -/
def edgeTerm (a b : NP) : ℚ := (a.x + b.x) * (a.y - b.y)

theorem areaLoop_id : ∀ (ps : List NP) (a : ℚ) (p : NP), areaLoop id a p ps = a + pathSum edgeTerm p ps
  | [], a, p => by simp [areaLoop, pathSum]
  | q :: ps, a, p => by
    simp only [areaLoop, pathSum, id]
    rw [areaLoop_id ps]
    unfold edgeTerm
    ring

theorem polyArea_cyc (ps : List NP) : polyArea id ps = mathRound |cyc edgeTerm ps / 2| := by
  unfold polyArea cyc
  cases ps.getLast? with
  | none => rfl
  | some l => simp only [id, areaLoop_id, zero_add]

/-- Coordinates of a point. -/
def npxy (p : NP) : ℚ × ℚ := (p.x, p.y)

theorem cyc_edge (ps : List NP) : cyc edgeTerm ps = - shoelace (ps.map npxy) := by
  have h1 : shoelace (ps.map npxy) = cyc (fun a b : NP => a.x * b.y - b.x * a.y) ps := by
    unfold shoelace
    rw [cyc_zip (fun a b : ℚ × ℚ => a.1 * b.2 - b.1 * a.2), Small.cyc_map]
    rfl
  have h2 : edgeTerm = fun a b => (- (a.x * b.y - b.x * a.y)) + ((fun p : NP => p.x * p.y) a - (fun p : NP => p.x * p.y) b) := by
    funext a b
    unfold edgeTerm
    simp only
    ring
  rw [h1, h2, cyc_add, cyc_tele (fun p : NP => p.x * p.y), cyc_neg, add_zero]

/-- **C58**: in exact arithmetic `Area` is the shoelace area, rounded to an integer. -/
theorem c58_shoelace (ps : List NP) : polyArea id ps = mathRound (|shoelace (ps.map npxy)| / 2) := by
  rw [polyArea_cyc, cyc_edge, abs_div, abs_neg, abs_of_pos (by norm_num : (0 : ℚ) < 2)]

/-- **C58**: `Area` does not change when the vertex list is rotated, reversed, or translated (exact arithmetic). -/
theorem c58_invariant (ps : List NP) :
    (∀ n, polyArea id (ps.rotate n) = polyArea id ps) ∧ polyArea id ps.reverse = polyArea id ps ∧
      ∀ dx dy, polyArea id (ps.map fun p => ⟨p.x + dx, p.y + dy⟩) = polyArea id ps := by
  refine ⟨fun n => ?_, ?_, fun dx dy => ?_⟩
  · rw [polyArea_cyc, polyArea_cyc, cyc_rotate]
  · rw [polyArea_cyc, polyArea_cyc, cyc_reverse (fun a b => by unfold edgeTerm; ring), neg_div, abs_neg]
  · rw [polyArea_cyc, polyArea_cyc, Small.cyc_map]
    have : (fun a b : NP => edgeTerm ⟨a.x + dx, a.y + dy⟩ ⟨b.x + dx, b.y + dy⟩) =
        fun a b => edgeTerm a b + ((fun p : NP => 2 * dx * p.y) a - (fun p : NP => 2 * dx * p.y) b) := by
      funext a b
      unfold edgeTerm
      simp only
      ring
    rw [this, cyc_add, cyc_tele (fun p : NP => 2 * dx * p.y), add_zero]

theorem areaLoop_fl {fl : ℚ → ℚ} (R : Rnd 53 fl) {B : Nat} : ∀ (ps : List NP) (p : NP) (n : ℤ) (k : Nat),
    (∀ q ∈ p :: ps, ∃ x y : ℤ, q = ⟨x, y⟩ ∧ |x| ≤ B ∧ |y| ≤ B) → |n| ≤ k * (4 * B * B) → (k + ps.length) * (4 * B * B) ≤ 2 ^ 53 →
    ∃ m : ℤ, areaLoop fl n p ps = m ∧ areaLoop id n p ps = m ∧ |m| ≤ 2 ^ 53
  | [], p, n, k, _, hn, hk => by
    refine ⟨n, rfl, rfl, ?_⟩
    have : ((k + 0) * (4 * B * B) : ℤ) ≤ 2 ^ 53 := by exact_mod_cast hk
    linarith [this, hn]
  | q :: ps, p, n, k, hq, hn, hk => by
    obtain ⟨x, y, rfl, hx, hy⟩ := hq p (by simp)
    obtain ⟨x', y', rfl, hx', hy'⟩ := hq q (by simp)
    have hB : (0 : ℤ) ≤ B := by positivity
    have hk' : ((k : ℤ) + ((ps.length : ℤ) + 1)) * (4 * B * B) ≤ 2 ^ 53 := by exact_mod_cast hk
    have hs : |x + x'| ≤ 2 * B := by have := abs_add_le x x'; linarith
    have hd : |y - y'| ≤ 2 * B := by have := abs_sub y y'; linarith
    have hp : |(x + x') * (y - y')| ≤ 4 * B * B := by
      rw [abs_mul]
      calc |x + x'| * |y - y'| ≤ (2 * B) * (2 * B) := mul_le_mul hs hd (abs_nonneg _) (by linarith)
        _ = 4 * B * B := by ring
    have hnn : |n + (x + x') * (y - y')| ≤ ((k + 1 : Nat) : ℤ) * (4 * B * B) := by
      have := abs_add_le n ((x + x') * (y - y'))
      push_cast
      linarith
    have hBB : (0 : ℤ) ≤ 4 * B * B := by positivity
    have hle1 : (4 : ℤ) * B * B ≤ 2 ^ 53 := by nlinarith [mul_nonneg (add_nonneg (Int.natCast_nonneg k) (Int.natCast_nonneg ps.length)) hBB]
    have hle2 : ((k + 1 : Nat) : ℤ) * (4 * B * B) ≤ 2 ^ 53 := by
      push_cast
      nlinarith [mul_nonneg (Int.natCast_nonneg ps.length) hBB]
    have h2B : (2 : ℤ) * B ≤ 2 ^ 53 := by nlinarith
    have e1 : fl ((x : ℚ) + x') = ((x + x' : ℤ) : ℚ) := by rw [← R.int (n := x + x') (by linarith)]; push_cast; rfl
    have e2 : fl ((y : ℚ) - y') = ((y - y' : ℤ) : ℚ) := by rw [← R.int (n := y - y') (by linarith)]; push_cast; rfl
    have e3 : fl (((x + x' : ℤ) : ℚ) * ((y - y' : ℤ) : ℚ)) = (((x + x') * (y - y') : ℤ) : ℚ) := by
      rw [← R.int (n := (x + x') * (y - y')) (by linarith)]; push_cast; rfl
    have e4 : fl ((n : ℚ) + (((x + x') * (y - y') : ℤ) : ℚ)) = ((n + (x + x') * (y - y') : ℤ) : ℚ) := by
      rw [← R.int (n := n + (x + x') * (y - y')) (by linarith)]; push_cast; rfl
    obtain ⟨m, h1, h2, h3⟩ := areaLoop_fl R ps ⟨x', y'⟩ (n + (x + x') * (y - y')) (k + 1) (fun q h => hq q (List.mem_cons_of_mem _ h)) hnn (by
      rw [List.length_cons] at hk
      calc (k + 1 + ps.length) * (4 * B * B) = (k + (ps.length + 1)) * (4 * B * B) := by ring
        _ ≤ 2 ^ 53 := hk)
    refine ⟨m, ?_, ?_, h3⟩
    · simp only [areaLoop]
      rw [e1, e2, e3, e4]
      exact h1
    · simp only [areaLoop, id]
      rw [← h2]
      congr 1
      push_cast
      ring

/-- **C58** for floats: with integer coordinates up to `B` and at most `2^51 / B^2` vertices nothing is rounded. -/
theorem c58_rounded {fl : ℚ → ℚ} (R : Rnd 53 fl) {B : Nat} {ps : List NP} (h : ∀ q ∈ ps, ∃ x y : ℤ, q = ⟨x, y⟩ ∧ |x| ≤ B ∧ |y| ≤ B)
    (hn : ps.length * (4 * B * B) ≤ 2 ^ 53) : polyArea fl ps = polyArea id ps := by
  unfold polyArea
  cases hl : ps.getLast? with
  | none => simp only; rw [zero_div, R.zero]; rfl
  | some l =>
    have hm : l ∈ ps := List.mem_of_getLast? hl
    obtain ⟨m, h1, h2, h3⟩ := areaLoop_fl R ps l 0 0 (by
      intro q hq
      rcases List.mem_cons.mp hq with rfl | hq
      · exact h _ hm
      · exact h q hq) (by simp) (by simpa using hn)
    rw [Int.cast_zero] at h1 h2
    simp only
    rw [h1, h2]
    have : fl ((m : ℚ) / 2) = (m : ℚ) / 2 := R.fix _ ⟨m, -1, h3, by norm_num; ring⟩
    rw [this]
    rfl

example : polyArea (rne 53) [⟨0, 0⟩, ⟨4, 0⟩, ⟨5, 3⟩, ⟨0, 4⟩] = 16 := by decide +kernel

/-! ### C59: Polygonate drops repeated points -/

/-- `out` is `src` with each run of equal points contracted to one. -/
def Contracted {α : Type} (src out : List α) : Prop :=
  (∀ (i : Nat) a, out[i]? = some a → out[i + 1]? ≠ some a) ∧
  ∃ ks : List Nat, ks.length = out.length ∧ (∀ k ∈ ks, 1 ≤ k) ∧ src = (List.zipWith List.replicate ks out).flatten

theorem contracted_push {α : Type} [DecidableEq α] (l : List α) : Contracted l (l.foldl pushNew []) := by
  obtain ⟨ks, h1, h2, h3, h4⟩ := pushNew_spec l [] [] rfl (by simp) (by simp)
  exact ⟨h4, ks, h1, h2, by simpa using h3⟩

/-- **C59**, `Polygonate`: the rounded vertices with each run of equal ones contracted to one. -/
theorem c59_polygonate (ps : List (ℚ × ℚ)) : Contracted (ps.map fun p => (⟨mathRound p.1, mathRound p.2⟩ : Pt)) (polygonateOne ps) := by
  have : polygonateOne ps = (ps.map fun p => (⟨mathRound p.1, mathRound p.2⟩ : Pt)).foldl pushNew [] := by
    unfold polygonateOne
    rw [List.foldl_map]
    rfl
  rw [this]
  exact contracted_push _

/-- **C59**, the polygon fitness function does the same with its own rounding. -/
theorem c59_fitness (fl : ℚ → ℚ) (ps : List (ℚ × ℚ)) : Contracted (ps.map fun p => (⟨fastRound fl p.1, fastRound fl p.2⟩ : Pt)) (roundPoly fl ps) := by
  have : roundPoly fl ps = (ps.map fun p => (⟨fastRound fl p.1, fastRound fl p.2⟩ : Pt)).foldl pushNew [] := by
    unfold roundPoly
    rw [List.foldl_map]
    rfl
  rw [this]
  exact contracted_push _

/-- The first and the last point may be equal. -/
theorem c59_ends : polygonateOne [(0, 0), (5, 1 / 4), (5, 0), (3, 4), (1 / 4, -1 / 4)] = [⟨0, 0⟩, ⟨5, 0⟩, ⟨3, 4⟩, ⟨0, 0⟩] := by decide +kernel

end Verif.Props

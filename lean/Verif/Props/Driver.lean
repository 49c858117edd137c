import Verif.Alg.Driver
import Verif.Props.Default
import Verif.Props.ModTri

/-!
# The loops of package utils (C85), the files they write (C86) and the comparison of two algorithms (C93)
-/

namespace Verif.Props

open Verif.Tri Verif.Spec Verif.Float Verif.Raster Verif.Fit Verif.Alg Verif.Small
open Verif.Incr hiding trunc step run Entry

section
variable {σ : Type} {O : Obj σ}

/-- What the loops need of an algorithm: `Good g` holds of the states it can be in after `g` steps, the generation counts the steps, and a step
does not lower the best fitness. -/
structure Counts (O : Obj σ) (Good : Nat → σ → Prop) : Prop where
  gen : ∀ {g s}, Good g s → (O.stats s).1 = g
  step : ∀ {g s s'}, Good g s → O.step s s' → Good (g + 1) s' ∧ (O.stats s).2 ≤ (O.stats s').2

variable {Good : Nat → σ → Prop}

theorem Counts.steps (C : Counts O Good) {n g : Nat} {s s' : σ} (h : Steps O n s s') (hs : Good g s) : Good (g + n) s' ∧ (O.stats s).2 ≤ (O.stats s').2 := by
  induction h with
  | nil => exact ⟨hs, le_rfl⟩
  | snoc _ h ih =>
    obtain ⟨h1, h2⟩ := ih hs
    obtain ⟨h3, h4⟩ := C.step h1 h
    exact ⟨h3, h2.trans h4⟩

/-- **C85**, `RunAlgorithm`: line `k` shows generation `(k + 1) * reps` after the start, the fitnesses do not decrease, and the last line shows the fitness at that time. -/
theorem c85_lines (C : Counts O Good) {reps : Int} {g : Nat} {s s' : σ} {L : List (Nat × ℚ)} (h : RunAlg O reps s L s') (hs : Good g s) :
    Good (g + L.length * reps.toNat) s' ∧ L.map Prod.fst = (List.range L.length).map (fun k => g + (k + 1) * reps.toNat) ∧
      ((O.stats s).2 :: L.map Prod.snd).Pairwise (· ≤ ·) ∧ (∀ x ∈ L.getLast?, x = O.stats s') := by
  have key : Good (g + L.length * reps.toNat) s' ∧ L.map Prod.fst = (List.range L.length).map (fun k => g + (k + 1) * reps.toNat) ∧
      ((O.stats s).2 :: L.map Prod.snd).Pairwise (· ≤ ·) ∧ (∀ x ∈ (O.stats s).2 :: L.map Prod.snd, x ≤ (O.stats s').2) ∧ (∀ x ∈ L.getLast?, x = O.stats s') := by
    induction h with
    | start => simpa using hs
    | @round L s' s'' h hn ih =>
      obtain ⟨h1, h2, h3, h4, -⟩ := ih
      obtain ⟨h5, h6⟩ := C.steps hn h1
      have e : g + L.length * reps.toNat + reps.toNat = g + (L.length + 1) * reps.toNat := by ring
      rw [e] at h5
      have g1 := C.gen h5
      refine ⟨by simpa using h5, ?_, ?_, ?_, by simp⟩
      · simp only [List.map_append, List.length_append, List.length_singleton, List.range_succ, h2, List.map_cons, List.map_nil, g1]
      · rw [List.map_append, ← List.cons_append, List.pairwise_append]
        refine ⟨h3, by simp, fun a ha b hb => ?_⟩
        simp at hb
        rw [hb]
        exact (h4 a ha).trans h6
      · intro x hx
        rw [List.map_append, ← List.cons_append, List.mem_append] at hx
        rcases hx with hx | hx
        · exact (h4 x hx).trans h6
        · simp at hx; rw [hx]
  exact ⟨key.1, key.2.1, key.2.2.1, key.2.2.2.2⟩

/-- The loop of `GenerateAlgorithmOutput` is that of `RunAlgorithm`. -/
theorem output_lines {enc : Nat × ℚ → List UInt8} {reps : Int} {s s' : σ} {o : Output} (h : GenOutput O enc reps s o s') : RunAlg O reps s o.printed s' := by
  induction h with
  | start => exact .start _
  | round _ hn ih => exact .round ih hn

/-- **C85**, `GenerateAlgorithmOutput`: it prints what `RunAlgorithm` prints, and after every iteration the output file holds the points of `Best` at that
time. -/
theorem c85_output {enc : Nat × ℚ → List UInt8} {reps : Int} {s s' : σ} {o : Output} (h : GenOutput O enc reps s o s') :
    RunAlg O reps s o.printed s' ∧ (o.printed ≠ [] → o.points = some (O.best s')) := by
  refine ⟨output_lines h, fun hn => ?_⟩
  cases h with
  | start => exact absurd rfl hn
  | round => rfl

/-- **C86**, the file of statistics: after every iteration it holds all lines printed and nothing is left in the buffer. -/
theorem c86_stats {enc : Nat × ℚ → List UInt8} {reps : Int} {s s' : σ} {o : Output} (h : GenOutput O enc reps s o s') :
    o.stats.file = (o.printed.map enc).flatten ∧ o.stats.buf = [] := by
  induction h with
  | start => exact ⟨rfl, rfl⟩
  | @round o s' s'' h hn ih =>
    refine ⟨?_, rfl⟩
    obtain ⟨e, -⟩ := write_all o.stats (enc (O.stats s'')) (by rw [ih.2]; simp)
    simp only [BufW.flush]
    rw [e, ih.1, ih.2]
    simp

/-- **C85**, `GenerateProfile` and `GenerateTrace`: the numbers of steps. -/
theorem c85_profile (C : Counts O Good) {clock : Nat → ℚ} {seconds : Int} {k g : Nat} {s s' : σ} (h : Profile O clock seconds k s s') (hs : Good g s) :
    (O.stats s').1 = g + 5 * k ∧ (O.stats s).2 ≤ (O.stats s').2 ∧ (seconds ≤ clock 0 → s' = s) := by
  obtain ⟨h1, -, t, rfl, rfl, ht⟩ := h
  have key : ∀ j ≤ k, Good (g + 5 * j) (t j) ∧ (O.stats (t 0)).2 ≤ (O.stats (t j)).2 := by
    intro j
    induction j with
    | zero => intro _; exact ⟨hs, le_rfl⟩
    | succ j ih =>
      intro hj
      obtain ⟨a, b⟩ := ih (by omega)
      obtain ⟨c, d⟩ := C.steps (ht j (by omega)) a
      exact ⟨by rw [mul_add, ← add_assoc]; exact c, b.trans d⟩
  refine ⟨C.gen (key k le_rfl).1, (key k le_rfl).2, fun h => ?_⟩
  have : k = 0 := by
    by_contra hk
    exact absurd (h1 0 (by omega)) (not_lt.mpr h)
  rw [this]

theorem c85_trace (C : Counts O Good) {chunks : List (List UInt8)} {g : Nat} {s s' : σ} {file : List UInt8} (h : Trace O chunks s s' file) (hs : Good g s) :
    (O.stats s').1 = g + 3000 ∧ (O.stats s).2 ≤ (O.stats s').2 := by
  obtain ⟨s1, h1, h2, -⟩ := h
  obtain ⟨a, b⟩ := C.steps h1 hs
  obtain ⟨c, d⟩ := C.steps h2 a
  exact ⟨C.gen c, b.trans d⟩

/-- **C86**, the trace (what holds of it): the file is a beginning of the trace, short of at most 4096 bytes. -/
theorem c86_trace_partial {chunks : List (List UInt8)} {s s' : σ} {file : List UInt8} (h : Trace O chunks s s' file) :
    ∃ lost, file ++ lost = chunks.flatten ∧ lost.length ≤ 4096 := by
  obtain ⟨-, -, -, rfl⟩ := h
  obtain ⟨e, l⟩ := writes_all chunks ⟨[], []⟩ (by simp)
  exact ⟨_, by simpa using e, l⟩

/-- **C86** is false of `GenerateTrace`, which does not flush its writer: the file is incomplete whenever the last write of the tracer is one of at most 4096
bytes (and not empty), and it is empty if the trace is of at most 4096 bytes. -/
theorem c86_trace_false {chunks : List (List UInt8)} {s s' : σ} {file : List UInt8} (h : Trace O chunks s s' file) :
    (∀ p ∈ chunks.getLast?, p ≠ [] → p.length ≤ 4096 → file.length < chunks.flatten.length) ∧ (chunks.flatten.length ≤ 4096 → file = []) := by
  obtain ⟨-, -, -, rfl⟩ := h
  constructor
  · intro p hp hne hl
    obtain ⟨L, rfl⟩ := List.getLast?_eq_some_iff.mp (Option.mem_def.mp hp)
    obtain ⟨e, -⟩ := writes_all (L ++ [p]) ⟨[], []⟩ (by simp)
    have hb : ((L ++ [p]).foldl BufW.write ⟨[], []⟩).buf ≠ [] := by
      rw [List.foldl_append]
      exact write_short _ p hne hl
    have := congrArg List.length e
    simp only [List.length_append, List.length_nil, List.append_nil, zero_add] at this
    have := List.length_pos_iff.mpr hb
    omega
  · intro hl
    exact writes_small chunks ⟨[], []⟩ (by simpa [bufSize] using hl)

/-- A loop that steps until a condition holds stops at the first time it holds. -/
theorem Counts.until (C : Counts O Good) {stop : σ → Prop} {g : Nat} {s s' : σ} (h : Until O stop s s') (hs : Good g s) :
    ∃ n, Steps O n s s' ∧ Good (g + n) s' ∧ stop s' ∧ ∃ t : Nat → σ, t 0 = s ∧ t n = s' ∧ ∀ j < n, O.step (t j) (t (j + 1)) ∧ ¬ stop (t j) := by
  induction h generalizing g with
  | done h => exact ⟨0, .nil _, hs, h, fun _ => _, rfl, rfl, fun j hj => absurd hj (by omega)⟩
  | @step s s' s'' h1 h2 _ ih =>
    obtain ⟨n, -, h4, h5, t, t0, tn, ht⟩ := ih (C.step hs h2).1
    have ht' : ∀ j < n + 1, O.step ((fun j => if j = 0 then s else t (j - 1)) j) ((fun j => if j = 0 then s else t (j - 1)) (j + 1)) ∧
        ¬ stop ((fun j => if j = 0 then s else t (j - 1)) j) := by
      intro j hj
      rcases Nat.eq_zero_or_pos j with rfl | hp
      · simpa [t0] using ⟨h2, h1⟩
      · have := ht (j - 1) (by omega)
        rw [Nat.sub_add_cancel hp] at this
        simpa [hp.ne'] using this
    have many : ∀ m ≤ n + 1, Steps O m s ((fun j => if j = 0 then s else t (j - 1)) m) := by
      intro m hm
      induction m with
      | zero => simpa using Steps.nil s
      | succ m ihm => exact .snoc (ihm (by omega)) (ht' m (by omega)).1
    refine ⟨n + 1, by simpa [tn] using many (n + 1) le_rfl, by rw [← add_assoc, add_right_comm]; exact h4, h5, _, rfl, by simpa using tn, ht'⟩

/-- **C93** is false of `CompareAlgorithms`: it never calls the functions it is given and never prints anything, whatever the algorithms. -/
theorem c93_compare_false {τ : Type} {B : Obj τ} {fl : ℚ → ℚ} {newA : σ → Prop} {newB : τ → Prop} {c : Compared}
    (h : Compare fl compareCond O B newA newB c) : c.calls = 0 ∧ c.averages = [] ∧ c.printed = [] := by
  cases h with
  | start => exact ⟨rfl, rfl, rfl⟩
  | round _ h _ => simp [compareCond] at h

/-- **C93** (partial: for a loop whose condition is true, which the one in the code is not): line `k` shows 10000, the mean of the numbers of generations that
the second algorithm needed, and `k + 1`; each of these is the number of steps until its best fitness first reached that of the first algorithm after 10000 generations. -/
theorem c93_body_partial {τ : Type} {B : Obj τ} {fl : ℚ → ℚ} (R : Rnd 53 fl) {cond : Bool} {newA : σ → Prop} {newB : τ → Prop} {GoodB : Nat → τ → Prop}
    (CA : Counts O Good) (CB : Counts B GoodB) (hA : ∀ a, newA a → Good 0 a) (hB : ∀ b, newB b → GoodB 0 b) {c : Compared}
    (h : Compare fl cond O B newA newB c) :
    c.calls = c.averages.length ∧ c.printed.length = c.averages.length ∧
    (∀ k < c.averages.length, k + 1 < 2 ^ 39 → ((c.averages.take (k + 1)).map Prod.snd).sum < 2 ^ 53 → c.printed[k]? =
      some (10000, fl ((((c.averages.take (k + 1)).map Prod.snd).sum : Nat) / (k + 1 : Nat)), k + 1)) ∧
    ∀ p ∈ c.averages, p.1 = 10000 ∧ ∃ a a' : σ, newA a ∧ Steps O 10000 a a' ∧ ∃ t : Nat → τ, newB (t 0) ∧ (∀ j < p.2, B.step (t j) (t (j + 1))) ∧
      (O.stats a').2 ≤ (B.stats (t p.2)).2 ∧ ∀ j < p.2, (B.stats (t j)).2 < (O.stats a').2 := by
  induction h with
  | start => simp
  | @round c c' _ _ hr ih =>
    obtain ⟨i1, i2, i3, i4⟩ := ih
    cases hr with
    | @round a a' b b' avg na nb ua ub e =>
    obtain ⟨n, sa, ga, pa, ta, ta0, tan, hta⟩ := CA.until ua (hA a na)
    obtain ⟨m, -, gb, pb, tb, tb0, tbm, htb⟩ := CB.until ub (hB b nb)
    have e1 := CA.gen ga
    have e2 := CB.gen gb
    rw [zero_add] at e1 e2 ga
    have nb1 : n = 10000 := by
      rcases Nat.lt_or_ge 10000 n with hl | hl
      · have h1 := hta 10000 hl
        have g1 : ∀ j ≤ n, Good j (ta j) := by
          intro j
          induction j with
          | zero => intro _; rw [ta0]; exact hA a na
          | succ j ihj => intro hj; exact (CA.step (ihj (by omega)) (hta j (by omega)).1).1
        exact absurd (by rw [CA.gen (g1 10000 hl.le)]; norm_num) h1.2
      · rw [e1] at pa; omega
    rw [e1, e2, nb1] at e
    have len : avg.length = c.averages.length + 1 := by rw [e]; simp
    have all : ∀ p ∈ avg, p.1 = 10000 ∧ ∃ a a' : σ, newA a ∧ Steps O 10000 a a' ∧ ∃ t : Nat → τ, newB (t 0) ∧ (∀ j < p.2, B.step (t j) (t (j + 1))) ∧
        (O.stats a').2 ≤ (B.stats (t p.2)).2 ∧ ∀ j < p.2, (B.stats (t j)).2 < (O.stats a').2 := by
      intro p hp
      rw [e, List.mem_append, List.mem_singleton] at hp
      rcases hp with hp | rfl
      · exact i4 p hp
      · refine ⟨rfl, a, a', na, nb1 ▸ sa, tb, tb0 ▸ nb, fun j hj => (htb j hj).1, ?_, fun j hj => not_not.mp (htb j hj).2⟩
        simp only [tbm]
        exact not_lt.mp pb
    refine ⟨by simp only [len]; omega, by simp [len, i2], fun k hk hk2 hs => ?_, all⟩
    simp only [len] at hk
    rcases Nat.lt_or_ge k c.averages.length with hl | hl
    · have tk : avg.take (k + 1) = c.averages.take (k + 1) := by
        rw [e, List.take_append_of_le_length (by omega)]
      simp only [tk] at hs ⊢
      rw [List.getElem?_append_left (by omega)]
      exact i3 k hl hk2 hs
    · have hk' : k = c.averages.length := by omega
      have tk : avg.take (k + 1) = avg := List.take_of_length_le (by omega)
      simp only [tk] at hs ⊢
      have fs : (avg.map Prod.fst).sum = (k + 1) * 10000 := by
        have : avg.map Prod.fst = List.replicate avg.length 10000 :=
          List.eq_replicate_iff.mpr ⟨by simp, fun x hx => by
            obtain ⟨p, hp, rfl⟩ := List.mem_map.mp hx
            exact (all p hp).1⟩
        rw [this, List.sum_replicate, len, hk', smul_eq_mul]
      have nat : ∀ x : Nat, x < 2 ^ 53 → fl (x : ℚ) = x := by
        intro x hx
        have := R.int (n := (x : ℤ)) (by rw [abs_of_nonneg (by positivity)]; exact_mod_cast hx.le)
        simpa using this
      rw [List.getElem?_append_right (by omega), i2, hk', Nat.sub_self, List.getElem?_cons_zero, ← hk', fs, len, ← hk']
      have k0 : ((k + 1 : Nat) : ℚ) ≠ 0 := by positivity
      rw [nat _ (by omega), nat (k + 1) (by omega), nat _ hs]
      have : (((k + 1) * 10000 : Nat) : ℚ) / ((k + 1 : Nat) : ℚ) = ((10000 : Nat) : ℚ) := by
        rw [div_eq_iff k0]; push_cast; ring
      rw [this, nat 10000 (by norm_num)]
      norm_num

end

/-! ### The algorithms -/

section
variable {Dt K : Type} {F : Fun Dt K} {ok : K → Prop} {Dom : NP → Prop} {N : Nat} {Repr : Dt → List NP → Prop} {srt : Sorter} {cutoff : Nat}
  {init : List (List NP)} {k : Nat}

/-- simple.go 38-51, 123-133: the simple algorithm as an `Algorithm`. -/
def simpleObj (F : Fun Dt K) (srt : Sorter) (cutoff : Nat) (M : Mutator → Prop) : Obj (Algo Dt K) where
  step a a' := ∃ μ l, M μ ∧ SimpleStep F srt cutoff μ l a a'
  stats a := (a.gen, a.bestFit)
  best a := a.best

/-- modifiedgenetic.go 41-57, 218-232: the modified genetic algorithm as an `Algorithm`, in runs in which the members in front have positive fitness. -/
def modObj (F : Fun Dt K) (srt : Sorter) (cutoff : Nat) (M : Mutator → Prop) : Obj (Algo Dt K) where
  step a a' := ∃ μ l, FrontPos cutoff a ∧ M μ ∧ ModStep F srt cutoff μ l a a'
  stats a := (a.gen, a.bestFit)
  best a := a.best

theorem simple_counts (S : Setting F ok Dom N Repr srt cutoff init k) :
    Counts (simpleObj F srt cutoff (MutOK Dom N)) (fun g a => SimpleExec F srt cutoff (MutOK Dom N) init k g a) where
  gen h := (c44_simple S h).1
  step h hs := by
    obtain ⟨μ, l, hμ, hs⟩ := hs
    exact ⟨.step h hμ hs, c42_simple S h hμ hs⟩

theorem mod_counts (S : MSetting F ok Dom N Repr srt cutoff init k) :
    Counts (modObj F srt cutoff (MutOK Dom N)) (fun g a => PosExec F srt cutoff Dom N init k g a) where
  gen h := (c44_modified_partial S h).1
  step h hs := by
    obtain ⟨μ, l, hF, hμ, hs⟩ := hs
    exact ⟨.step h hF hμ hs, c42_modified_partial S h hF hμ hs⟩

/-- **C85**, simple algorithm: from its construction, `RunAlgorithm` prints generations `reps`, `2 * reps`, ... with fitnesses that do not decrease. -/
theorem c85_simple (S : Setting F ok Dom N Repr srt cutoff init k) {l : List Who} {a a' : Algo Dt K} (hn : NewSimple F srt init k l a) {reps : Int}
    {L : List (Nat × ℚ)} (h : RunAlg (simpleObj F srt cutoff (MutOK Dom N)) reps a L a') :
    L.map Prod.fst = (List.range L.length).map (fun k => (k + 1) * reps.toNat) ∧ (a.bestFit :: L.map Prod.snd).Pairwise (· ≤ ·) := by
  obtain ⟨-, h1, h2, -⟩ := c85_lines (simple_counts S) h (SimpleExec.new hn)
  exact ⟨by simpa using h1, h2⟩

/-- **C85**, simple algorithm: `RunAlgorithm` goes on for ever; it can print any number of lines. -/
theorem c85_simple_goes_on (S : Setting F ok Dom N Repr srt cutoff init k) {μ : Mutator} (hμ : MutOK Dom N μ) {l : List Who} {a : Algo Dt K}
    (hn : NewSimple F srt init k l a) (reps : Int) (m : Nat) :
    ∃ L a', RunAlg (simpleObj F srt cutoff (MutOK Dom N)) reps a L a' ∧ L.length = m := by
  have many : ∀ (n g : Nat) (b : Algo Dt K), SimpleExec F srt cutoff (MutOK Dom N) init k g b → ∃ b', Steps (simpleObj F srt cutoff (MutOK Dom N)) n b b' := by
    intro n g b hb
    induction n with
    | zero => exact ⟨b, .nil b⟩
    | succ n ih =>
      obtain ⟨b', h⟩ := ih
      obtain ⟨h1, -⟩ := (simple_counts S).steps h hb
      obtain ⟨l', b'', hs⟩ := (c47_step_completes S).2 _ _ μ h1 hμ
      exact ⟨b'', .snoc h ⟨μ, l', hμ, hs⟩⟩
  induction m with
  | zero => exact ⟨[], a, .start a, rfl⟩
  | succ m ih =>
    obtain ⟨L, a', h, hl⟩ := ih
    obtain ⟨h1, -⟩ := c85_lines (simple_counts S) h (SimpleExec.new hn)
    obtain ⟨a'', h'⟩ := many reps.toNat _ a' h1
    exact ⟨_, a'', .round h h', by simp [hl]⟩

/-- **C85**, modified genetic algorithm (partial: while the members in front have positive fitness). -/
theorem c85_modified_partial (S : MSetting F ok Dom N Repr srt cutoff init k) {l : List Who} {a a' : Algo Dt K} (hn : NewMod F srt cutoff init k l a) {reps : Int}
    {L : List (Nat × ℚ)} (h : RunAlg (modObj F srt cutoff (MutOK Dom N)) reps a L a') :
    L.map Prod.fst = (List.range L.length).map (fun k => (k + 1) * reps.toNat) ∧ (a.bestFit :: L.map Prod.snd).Pairwise (· ≤ ·) := by
  obtain ⟨-, h1, h2, -⟩ := c85_lines (mod_counts S) h (ModExec.new hn)
  exact ⟨by simpa using h1, h2⟩

end

section
variable {σ : Type} {r : Source σ} {im : Source16} {n : Int} {srt : Sorter} {z : ℚ} {bf : D → D → Bufs} {s0 : σ}

/-- default.go 15-32: what `DefaultAlgorithm` returns as an `Algorithm`; the state of the random source is part of the state. -/
def defaultObj (srt : Sorter) (z : ℚ) (bf : D → D → Bufs) (r : Source σ) (im : Source16) (n : Int) : Obj (Algo D Tri × σ) where
  step x y := ∃ l, DefaultStep ieee srt z bf r im n l x.1 x.2 y.1 y.2
  stats x := (x.1.gen, x.1.bestFit)
  best x := x.1.best

theorem default_counts (S : DefaultOK r im n srt) :
    Counts (defaultObj srt z bf r im n) (fun g x => DefaultExec ieee srt z bf r im n s0 g x.1 x.2) where
  gen h := (c78_default_partial S h).1
  step h hs := by
    obtain ⟨l, hs⟩ := hs
    obtain ⟨-, -, -, -, -, -, -, -, h1⟩ := c78_default_partial S h
    exact ⟨.step h hs, h1 _ _ _ hs⟩

/-- **C85**, `GenerateAlgorithmOutput` on what `DefaultAlgorithm` returns (partial: the conditions of C78): after any positive number of iterations the generations and fitnesses printed are as for
`RunAlgorithm`, and the output file holds the requested number of points, all in the unit square, whose fitness, computed afresh from a triangulation of
exactly these points, is the one printed last. -/
theorem c85_default_partial (S : DefaultOK r im n srt) {l : List Who} {a : Algo D Tri} {s : σ} (hn : DefaultNew ieee srt z bf r im n s0 l a s)
    {enc : Nat × ℚ → List UInt8} {reps : Int} {x : Algo D Tri × σ} {o : Output} (h : GenOutput (defaultObj srt z bf r im n) enc reps (a, s) o x) (h0 : o.printed ≠ []) :
    o.printed.map Prod.fst = (List.range o.printed.length).map (fun k => (k + 1) * reps.toNat) ∧
    (a.bestFit :: o.printed.map Prod.snd).Pairwise (· ≤ ·) ∧
    o.stats.file = (o.printed.map enc).flatten ∧
    ∃ ps v g, o.points = some ps ∧ ps.length = n.toNat ∧ (∀ q ∈ ps, (0 ≤ q.x ∧ q.x ≤ 1) ∧ 0 ≤ q.y ∧ q.y ≤ 1) ∧ o.printed.getLast? = some (g, v) ∧
      ∃ ops m d, Hist im.maxX.toNat im.maxY.toNat ops ↑(pix (rne 53) (theImage im) ps) m ∧
        exec (gridGeo ieee im.maxX.toNat im.maxY.toNat) (rne 53) im.maxX.toNat im.maxY.toNat ops = some d ∧
        evalTris (rne 53) z (theImage im) 5 (iterTriangles d) = some v := by
  obtain ⟨h1, h2⟩ := c85_output h
  obtain ⟨h3, h4, h5, h6⟩ := c85_lines (default_counts (z := z) (bf := bf) (s0 := s0) S) h1 (DefaultExec.new hn)
  obtain ⟨-, -, k1, k2, -, ⟨ops, m, d, k3, k4, k5, -⟩, -⟩ := c78_default_partial S h3
  refine ⟨by simpa using h4, h5, (c86_stats h).1, x.1.best, x.1.bestFit, x.1.gen, h2 h0, k1, k2, ?_, ops, m, d, k3, k4, k5⟩
  cases e : o.printed.getLast? with
  | none => exact absurd (List.getLast?_eq_none_iff.mp e) h0
  | some y => rw [h6 y e]; rfl

end

/-! ### Examples -/

/-- A tally whose fitness is its value. -/
def tally : Obj Nat := ⟨fun a b => b = a + 1, fun a => (a, a), fun _ => []⟩

theorem tally_counts : Counts tally (fun g a => a = g) where
  gen h := h
  step h hs := by
    refine ⟨by rw [hs, h], ?_⟩
    simp only [tally] at hs ⊢
    rw [hs]
    push_cast
    linarith

/-- Two lines with `reps = 3`. -/
example : RunAlg tally 3 0 [(3, 3), (6, 6)] 6 := by
  have s3 : ∀ a, Steps tally 3 a (a + 3) := fun a => .snoc (.snoc (.snoc (.nil a) rfl) rfl) rfl
  exact .round (L := [(3, 3)]) (.round (.start 0) (s3 0)) (s3 3)

theorem tally_steps (n a : Nat) : Steps tally n a (a + n) := by
  induction n with
  | zero => exact .nil a
  | succ n ih => exact .snoc ih rfl

/-- A trace of 5000 bytes, written as 4000 and 1000: the last 904 bytes are lost. -/
example : ∃ file, Trace tally [List.replicate 4000 1, List.replicate 1000 2] 0 3000 file ∧ file.length = 4096 :=
  ⟨_, ⟨2000, by simpa using tally_steps 2000 0, by simpa using tally_steps 1000 2000, rfl⟩, by decide +kernel⟩

/-- A profile of 2 iterations. -/
example : Profile tally (fun j => j) 2 2 0 10 :=
  ⟨fun j hj => by simp only; exact_mod_cast hj, by norm_num, fun j => 5 * j, rfl, rfl, fun j _ => by
    have := tally_steps 5 (5 * j)
    simpa [mul_add] using this⟩

/-- A tally whose fitness is half its value takes 20000 steps to reach what `tally` reaches in 10000; one round of a comparison that runs. -/
def slow : Obj Nat := ⟨fun a b => b = a + 1, fun a => (a, a / 2), fun _ => []⟩

theorem tally_until (O : Obj Nat) (hO : ∀ a, O.step a (a + 1)) (stop : Nat → Prop) (m : Nat) (hm : stop m) :
    ∀ n a, a + n = m → (∀ j, a ≤ j → j < m → ¬ stop j) → Until O stop a m := by
  intro n
  induction n with
  | zero => intro a ha _; rw [show a = m by omega]; exact .done hm
  | succ n ih =>
    intro a ha hs
    exact .step (hs a le_rfl (by omega)) (hO a) (ih (a + 1) (by omega) fun j h1 h2 => hs j (by omega) h2)

example : ∃ c, Compare (rne 53) true tally slow (· = 0) (· = 0) c ∧ c.averages = [(10000, 20000)] ∧ c.printed = [(10000, 20000, 1)] := by
  have h1 : Until tally (fun s => ¬ (tally.stats s).1 < 10000) 0 10000 :=
    tally_until tally (fun _ => rfl) _ 10000 (by simp [tally]) 10000 0 rfl fun j _ h => by simpa [tally] using h
  have h2 : Until slow (fun t => ¬ (slow.stats t).2 < (tally.stats 10000).2) 0 20000 :=
    tally_until slow (fun _ => rfl) _ 20000 (by norm_num [tally, slow]) 20000 0 rfl fun j _ h => by
      have : (j : ℚ) < 20000 := by exact_mod_cast h
      simp only [tally, slow, not_not]
      push_cast
      linarith
  refine ⟨_, .round .start rfl (.round rfl rfl h1 h2 rfl), rfl, ?_⟩
  decide +kernel

/-- Any number of lines of the simple algorithm on the 40 x 30 case, with `reps = 10`. -/
example (m : Nat) : ∃ (a a' : Algo D Tri) (L : List (Nat × ℚ)), RunAlg (simpleObj trioFun someSorter 1 (MutOK Unit01 3)) 10 a L a' ∧ L.length = m ∧
    L.map Prod.fst = (List.range m).map (fun k => (k + 1) * 10) ∧ (a.bestFit :: L.map Prod.snd).Pairwise (· ≤ ·) := by
  obtain ⟨l, a, hn⟩ := (c47_step_completes (trio_setting.setting 0 fun _ _ => ⟨[], [], fun _ _ => [], fun _ => []⟩)).1
  obtain ⟨L, a', h, hl⟩ := c85_simple_goes_on (trio_setting.setting 0 fun _ _ => ⟨[], [], fun _ _ => [], fun _ => []⟩) (moveFirst_ok 3) hn 10 m
  obtain ⟨h1, h2⟩ := c85_simple (trio_setting.setting 0 fun _ _ => ⟨[], [], fun _ _ => [], fun _ => []⟩) hn h
  exact ⟨a, a', L, h, hl, by rw [h1, hl]; rfl, h2⟩

/-- One iteration of `GenerateAlgorithmOutput`: the line is in the file. -/
example : ∃ o, GenOutput tally (fun x => List.replicate x.1 7) 3 0 o 3 ∧ o.stats.file = [7, 7, 7] ∧ o.stats.buf = [] := by
  have h : GenOutput tally (fun x => List.replicate x.1 7) 3 0 _ 3 := .round (.start 0) (by simpa using tally_steps 3 0)
  exact ⟨_, h, (c86_stats h).1, (c86_stats h).2⟩

end Verif.Props

import Verif.Alg.Algo

/-!
# Model of the loops of package utils that run an algorithm

An `algorithm.Algorithm` is any object with a state; what a `Step` can do is a relation, so that all schedules and random numbers are
covered.  Files are the bytes written to them; creating and writing files is assumed to succeed.  `bufio.Writer` is modelled from its documented
behaviour, with its default buffer of 4096 bytes.
-/

namespace Verif.Alg

open Verif.Fit

/-- algorithm.go 10-26: an `Algorithm` with states of type `σ`: the effect of `Step`, the generation and best fitness of `Stats`, and `Best`. -/
structure Obj (σ : Type) where
  step : σ → σ → Prop
  stats : σ → Nat × ℚ
  best : σ → List NP

section
variable {σ : Type} (O : Obj σ)

/-- `for i := 0; i < n; i++ { algo.Step() }`: output.go 22-24, fitness.go 12-14, trace.go 15-17. -/
inductive Steps : Nat → σ → σ → Prop where
  | nil (s) : Steps 0 s s
  | snoc {n s s' s''} : Steps n s s' → O.step s' s'' → Steps (n + 1) s s''

/-- fitness.go 9-20 `RunAlgorithm`: the lines printed so far, at the end of an iteration of the outer loop. -/
inductive RunAlg (reps : Int) : σ → List (Nat × ℚ) → σ → Prop where
  | start (s) : RunAlg reps s [] s
  | round {s L s' s''} : RunAlg reps s L s' → Steps O reps.toNat s' s'' → RunAlg reps s (L ++ [O.stats s'']) s''

end

/-- A `bufio.Writer` on a file: the bytes in the file and the bytes in the buffer. -/
structure BufW where
  file : List UInt8
  buf : List UInt8

/-- The default size of the buffer of a `bufio.Writer`. -/
def bufSize : Nat := 4096

/-- `bufio.Writer.Write` with an empty buffer: what does not fit goes to the file directly. -/
def BufW.writeEmpty (f : List UInt8) (p : List UInt8) : BufW := if p.length ≤ bufSize then ⟨f, p⟩ else ⟨f ++ p, []⟩

/-- `bufio.Writer.Write`: fill the buffer; when it is full, write it to the file and carry on with an empty one. -/
def BufW.write (w : BufW) (p : List UInt8) : BufW :=
  if p.length ≤ bufSize - w.buf.length then ⟨w.file, w.buf ++ p⟩
  else if w.buf = [] then BufW.writeEmpty w.file p
  else BufW.writeEmpty (w.file ++ (w.buf ++ p.take (bufSize - w.buf.length))) (p.drop (bufSize - w.buf.length))

/-- `bufio.Writer.Flush`. -/
def BufW.flush (w : BufW) : BufW := ⟨w.file ++ w.buf, []⟩

/-- What `GenerateAlgorithmOutput` has produced: the lines printed, the points in the output file (its content is their JSON), and the file
of statistics. -/
structure Output where
  printed : List (Nat × ℚ)
  points : Option (List NP)
  stats : BufW

section
variable {σ : Type} (O : Obj σ)

/-- output.go 14-44 `GenerateAlgorithmOutput`, at the end of an iteration of the outer loop.  `enc` formats a line of the file of statistics. -/
inductive GenOutput (enc : Nat × ℚ → List UInt8) (reps : Int) : σ → Output → σ → Prop where
  | start (s) : GenOutput enc reps s ⟨[], none, ⟨[], []⟩⟩ s
  | round {s o s' s''} : GenOutput enc reps s o s' → Steps O reps.toNat s' s'' →
      GenOutput enc reps s ⟨o.printed ++ [O.stats s''], some (O.best s''), (o.stats.write (enc (O.stats s''))).flush⟩ s''

/-- profile.go 11-27 `GenerateProfile`: `clock j` is the number of seconds passed at the `j`-th test of the loop, `k` the number of iterations. -/
def Profile (clock : Nat → ℚ) (seconds : Int) (k : Nat) (s s' : σ) : Prop :=
  (∀ j < k, clock j < seconds) ∧ seconds ≤ clock k ∧ ∃ t : Nat → σ, t 0 = s ∧ t k = s' ∧ ∀ j < k, Steps O 5 (t j) (t (j + 1))

/-- trace.go 12-25 `GenerateTrace`: `chunks` is what the tracer writes between `Start` and `Stop`; the result is the file when it is closed. -/
def Trace (chunks : List (List UInt8)) (s s' : σ) (file : List UInt8) : Prop :=
  ∃ s1, Steps O 2000 s s1 ∧ Steps O 1000 s1 s' ∧ file = (chunks.foldl BufW.write ⟨[], []⟩).file

end

/-- `for !stop { algo.Step() }`: compare.go 25-27 and 29-31. -/
inductive Until {σ : Type} (O : Obj σ) (stop : σ → Prop) : σ → σ → Prop where
  | done {s} : stop s → Until O stop s s
  | step {s s' s''} : ¬ stop s → O.step s s' → Until O stop s' s'' → Until O stop s s''

/-- What `CompareAlgorithms` has done: how often it has called `a` and `b`, the contents of `averagesA` and `averagesB`, and the lines printed. -/
structure Compared where
  calls : Nat
  averages : List (Nat × Nat)
  printed : List (ℚ × ℚ × Nat)

/-- compare.go 18: the condition of the outer loop, `for false`. -/
def compareCond : Bool := false

/-- compare.go 19-44: one iteration of the outer loop.  `newA` and `newB` are the states in which the constructors can return an algorithm. -/
inductive CompareRound {σ τ : Type} (fl : ℚ → ℚ) (A : Obj σ) (B : Obj τ) (newA : σ → Prop) (newB : τ → Prop) : Compared → Compared → Prop where
  | round {c : Compared} {a a' : σ} {b b' : τ} {avg : List (Nat × Nat)} : newA a → newB b → Until A (fun s => ¬ (A.stats s).1 < 10000) a a' →
      Until B (fun t => ¬ (B.stats t).2 < (A.stats a').2) b b' → avg = c.averages ++ [((A.stats a').1, (B.stats b').1)] →
      CompareRound fl A B newA newB c ⟨c.calls + 1, avg, c.printed ++
        [(fl (fl ((avg.map Prod.fst).sum : Nat) / fl (avg.length : Nat)), fl (fl ((avg.map Prod.snd).sum : Nat) / fl (avg.length : Nat)), avg.length)]⟩

/-- compare.go 13-46 `CompareAlgorithms` with the condition `cond` for its outer loop, at the end of an iteration. -/
inductive Compare {σ τ : Type} (fl : ℚ → ℚ) (cond : Bool) (A : Obj σ) (B : Obj τ) (newA : σ → Prop) (newB : τ → Prop) : Compared → Prop where
  | start : Compare fl cond A B newA newB ⟨0, [], []⟩
  | round {c c'} : Compare fl cond A B newA newB c → cond = true → CompareRound fl A B newA newB c c' → Compare fl cond A B newA newB c'

theorem writeEmpty_all (f p : List UInt8) : (BufW.writeEmpty f p).file ++ (BufW.writeEmpty f p).buf = f ++ p ∧ (BufW.writeEmpty f p).buf.length ≤ bufSize := by
  unfold BufW.writeEmpty
  split
  · exact ⟨rfl, by assumption⟩
  · simp

theorem write_all (w : BufW) (p : List UInt8) (h : w.buf.length ≤ bufSize) :
    (w.write p).file ++ (w.write p).buf = w.file ++ w.buf ++ p ∧ (w.write p).buf.length ≤ bufSize := by
  unfold BufW.write
  split
  · rename_i h1
    simp only [List.append_assoc, List.length_append]
    exact ⟨trivial, by omega⟩
  · split
    · rename_i h2
      obtain ⟨e, l⟩ := writeEmpty_all w.file p
      rw [e, h2]
      exact ⟨by simp, l⟩
    · obtain ⟨e, l⟩ := writeEmpty_all (w.file ++ (w.buf ++ p.take (bufSize - w.buf.length))) (p.drop (bufSize - w.buf.length))
      rw [e]
      exact ⟨by simp, l⟩

theorem writes_all (L : List (List UInt8)) : ∀ w : BufW, w.buf.length ≤ bufSize →
    (L.foldl BufW.write w).file ++ (L.foldl BufW.write w).buf = w.file ++ w.buf ++ L.flatten ∧ (L.foldl BufW.write w).buf.length ≤ bufSize := by
  induction L with
  | nil => intro w h; simpa using h
  | cons p L ih =>
    intro w h
    obtain ⟨e, l⟩ := write_all w p h
    obtain ⟨e', l'⟩ := ih _ l
    rw [List.foldl_cons]
    exact ⟨by rw [e', e, List.flatten_cons, List.append_assoc _ p], l'⟩

/-- A write that fits leaves the file as it is. -/
theorem writes_small (L : List (List UInt8)) : ∀ w : BufW, w.buf.length + L.flatten.length ≤ bufSize → (L.foldl BufW.write w).file = w.file := by
  induction L with
  | nil => intro w _; rfl
  | cons p L ih =>
    intro w h
    rw [List.flatten_cons, List.length_append] at h
    have e : w.write p = ⟨w.file, w.buf ++ p⟩ := by
      unfold BufW.write
      rw [if_pos (by omega)]
    rw [List.foldl_cons, e, ih]
    simp only [List.length_append]
    omega

/-- After a short write the buffer is not empty. -/
theorem write_short (w : BufW) (p : List UInt8) (hp : p ≠ []) (hl : p.length ≤ bufSize) : (w.write p).buf ≠ [] := by
  have hp' : 0 < p.length := List.length_pos_iff.mpr hp
  rw [ne_eq, ← List.length_eq_zero_iff]
  unfold BufW.write
  split
  · simp only [List.length_append]; omega
  · split
    · rename_i h1 h2
      rw [h2] at h1
      simp at h1
      omega
    · unfold BufW.writeEmpty
      rw [if_pos (by rw [List.length_drop]; omega)]
      simp only [List.length_drop]
      omega

end Verif.Alg

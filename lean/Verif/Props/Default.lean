import Verif.Alg.Default
import Verif.Props.Simple
import Verif.Props.Small
import Verif.Props.FitnessPos

/-!
# C78: `DefaultAlgorithm` from image to result
-/

namespace Verif.Props

open Verif.Tri Verif.Spec Verif.Float Verif.Raster Verif.Fit Verif.Alg Verif.Small
open Verif.Incr hiding trunc step run Entry

section
variable {σ : Type} {r : Source σ} {im : Source16} {n : Int} {s0 : σ} {srt : Alg.Sorter} {z : ℚ} {bf : D → D → Bufs}

/-- The upper bytes of the colours of an image. -/
def upperBytes (im : Source16) (x y : Nat) : Fin 256 × Fin 256 × Fin 256 :=
  if x < im.maxX ∧ y < im.maxY then (Fin.ofNat 256 ((im.at16 x y).1 / 256), Fin.ofNat 256 ((im.at16 x y).2.1 / 256), Fin.ofNat 256 ((im.at16 x y).2.2 / 256))
  else (0, 0, 0)

/-- The image the fitness functions get. -/
theorem imageOf_eq (fl : ℚ → ℚ) (ok : Source16.OK im) (hx : 0 ≤ im.maxX) (hy : 0 ≤ im.maxY) :
    imageOf fl im = some (ofBytes fl im.maxX.toNat im.maxY.toNat (upperBytes im)) := by
  unfold imageOf toData newData
  rw [if_neg (by omega)]
  simp only [Option.map_some, Option.some.injEq, ofBytes, Img.mk.injEq, true_and]
  funext x y
  by_cases h : x < im.maxX ∧ y < im.maxY
  · have h1 : x < im.maxX.toNat := by omega
    have h2 : y < im.maxY.toNat := by omega
    rw [List.getElem?_mapIdx, List.getElem?_replicate_of_lt h2, Option.map_some, Option.bind_some, List.getElem?_mapIdx, List.getElem?_replicate_of_lt h1,
      Option.map_some, Option.getD_some]
    obtain ⟨o1, o2, o3⟩ := ok x y
    simp only [upperBytes, if_pos h, Fin.val_ofNat, convert]
    rw [Nat.mod_eq_of_lt (by omega), Nat.mod_eq_of_lt (by omega), Nat.mod_eq_of_lt (by omega)]
  · have e : upperBytes im x y = (0, 0, 0) := if_neg h
    rw [e]
    have : (((List.replicate im.maxY.toNat (List.replicate im.maxX.toNat (⟨0, 0, 0⟩ : RGB))).mapIdx fun y row => row.mapIdx fun x _ =>
        (⟨convert fl (im.at16 x y).1, convert fl (im.at16 x y).2.1, convert fl (im.at16 x y).2.2⟩ : RGB))[y]?.bind fun row => row[x]?) = none := by
      by_cases h2 : y < im.maxY
      · rw [List.getElem?_mapIdx, List.getElem?_replicate_of_lt (by omega), Option.map_some, Option.bind_some]
        exact List.getElem?_eq_none (by simp; omega)
      · rw [List.getElem?_eq_none (by simp; omega)]; rfl
    simp only
    rw [this]
    rfl

theorem draw_spec (ok : r.OK) (n : Int) : ∀ (m : Nat) (s : σ), (draw r n m s).1.length = m ∧ ∀ p ∈ (draw r n m s).1, p.length = n.toNat ∧ ∀ q ∈ p, In01 q := by
  intro m
  induction m with
  | zero => intro s; simp [draw]
  | succ m ih =>
    intro s
    obtain ⟨h1, h2⟩ := ih s
    refine ⟨by simp [draw, h1], ?_⟩
    intro p hp
    simp only [draw, List.mem_append, List.mem_singleton] at hp
    rcases hp with hp | rfl
    · exact h2 p hp
    · exact ⟨randomPoints_length r _ _, fun q hq => randomPoints_range ok _ _ q hq⟩

theorem randomPoints_add (r : Source σ) (a : Nat) (s : σ) : ∀ b, randomPoints r (a + b) s =
    ((randomPoints r a s).1 ++ (randomPoints r b (randomPoints r a s).2).1, (randomPoints r b (randomPoints r a s).2).2)
  | 0 => by simp [randomPoints]
  | b + 1 => by
    rw [← Nat.add_assoc]
    simp only [randomPoints, randomPoints_add r a s b, List.append_assoc]

/-- **C78**, the first population: its members, one after the other, are the first points of the random source, each used once. -/
theorem c78_population (r : Source σ) (n : Int) (s : σ) : ∀ m, (draw r n m s).1.flatten = (randomPoints r (m * n.toNat) s).1 ∧
    (draw r n m s).2 = (randomPoints r (m * n.toNat) s).2
  | 0 => by simp [draw, randomPoints]
  | m + 1 => by
    obtain ⟨h1, h2⟩ := c78_population r n s m
    rw [Nat.succ_mul, randomPoints_add]
    simp only [draw, List.flatten_append, List.flatten_cons, List.flatten_nil, List.append_nil, h1, h2, and_self]

/-- Calls one after the other on one source. -/
def inTurn {α β : Type} (f : σ → α → β × σ) : List α → σ → List β × σ
  | [], s => ([], s)
  | x :: l, s => ((f s x).1 :: (inTurn f l (f s x).2).1, (inTurn f l (f s x).2).2)

theorem inTurn_append {α β : Type} (f : σ → α → β × σ) : ∀ (l l' : List α) (s : σ),
    inTurn f (l ++ l') s = ((inTurn f l s).1 ++ (inTurn f l' (inTurn f l s).2).1, (inTurn f l' (inTurn f l s).2).2)
  | [], _, _ => rfl
  | x :: l, l', s => by simp only [List.cons_append, inTurn, inTurn_append f l l']

/-- **C78**, the mutants of a generation: they are what `Mutate` makes of copies of the first `cutoff` members, taken in turn, when it is called for one
after the other with one random source. -/
theorem c78_mutants (r : Source σ) (F : FloatOps) (n : Int) (cutoff : Nat) (pop : List (List NP)) (s : σ) (k : Nat) :
    inTurn (fun s ps => let x := gaussian r F.r64 (F.r32 (2 / F.r32 n)) (F.r64 (3 / 10)) s ps; ((x.1, x.2.1), x.2.2))
        ((List.range k).map fun m => pop.getD (m % cutoff) []) s =
      ((List.range k).map fun m => defaultMutator r F n cutoff pop s (cutoff + m) (pop.getD (m % cutoff) []), mutState r F n cutoff pop s k) := by
  induction k with
  | zero => rfl
  | succ k ih =>
    rw [List.range_succ, List.map_append, List.map_append, inTurn_append, ih]
    simp only [List.map_cons, List.map_nil, inTurn, defaultMutator, mutState, defaultRate, Nat.add_sub_cancel_left]

/-- What is assumed of the arguments of `DefaultAlgorithm` and of its surroundings. -/
structure DefaultOK (r : Source σ) (im : Source16) (n : Int) (srt : Alg.Sorter) : Prop where
  source : r.OK
  colours : Source16.OK im
  width : 1 ≤ im.maxX ∧ im.maxX ≤ 4096
  height : 1 ≤ im.maxY ∧ im.maxY ≤ 4096
  pixels : 2 ≤ im.maxX ∨ 2 ≤ im.maxY
  points : n ≤ 32767
  sort : SortOK srt

/-- The image as the fitness functions see it. -/
abbrev theImage (im : Source16) : Img := ofBytes (rne 53) im.maxX.toNat im.maxY.toNat (upperBytes im)

theorem DefaultOK.size (S : DefaultOK r im n srt) : SizeOk im.maxX.toNat im.maxY.toNat := by
  obtain ⟨-, -, ⟨a, b⟩, ⟨c, d⟩, e, -, -⟩ := S
  exact ⟨by omega, by omega, by omega, by omega, by omega⟩

theorem DefaultOK.setting (S : DefaultOK r im n srt) (s : σ) :
    TriSetting (gridGeo ieee im.maxX.toNat im.maxY.toNat) (rne 53) (theImage im) 5 n.toNat srt 5 (draw r n 400 s).1 22 := by
  have hd := draw_spec S.source n 400 s
  refine tri_setting_ieee S.size ?_ _ (by norm_num) (by norm_num) (by have := S.points; omega) S.sort (by norm_num) (by norm_num) (by rw [hd.1]; norm_num) hd.2
  obtain ⟨-, -, ⟨a, b⟩, ⟨c, d⟩, -, -, -⟩ := S
  unfold side
  omega

theorem DefaultOK.image (S : DefaultOK r im n srt) : imageOf ieee.r64 im = some (theImage im) :=
  imageOf_eq _ S.colours (by have := S.width; omega) (by have := S.height; omega)

/-- The mutations of a generation are recorded as the algorithm needs. -/
theorem default_mutator (r : Source σ) (F : FloatOps) (n : Int) (c : Nat) (pop : List (List NP)) (s : σ) (N : Nat) : MutOK Unit01 N (defaultMutator r F n c pop s) :=
  c50_gaussian_mutator r F.r64 _ _ (fun i => mutState r F n c pop s (i - c)) N

/-- An execution of the default algorithm is one of the simple algorithm. -/
theorem default_exec (S : DefaultOK r im n srt) {g : Nat} {a : Algo D Tri} {s : σ} (h : DefaultExec ieee srt z bf r im n s0 g a s) :
    SimpleExec (triFun (gridGeo ieee im.maxX.toNat im.maxY.toNat) (rne 53) z (theImage im) 5 bf) srt 5 (MutOK Unit01 n.toNat) (draw r n 400 s0).1 22 g a := by
  induction h with
  | new h =>
    obtain ⟨I, P, h1, h2, h3, h4⟩ := h
    rw [S.image] at h1
    cases h1
    exact .new h3
  | step _ h ih =>
    obtain ⟨I, h1, h2, h3⟩ := h
    rw [S.image] at h1
    cases h1
    exact .step ih (default_mutator _ _ _ _ _ _ _) h2

/-- When the table of block sums can be made. -/
theorem fromImageN_some {fl : ℚ → ℚ} {I : Img} : (fromImageN fl I 5).isSome ↔ 4 ≤ I.h ∧ (I.h = 4 ∨ 4 ≤ I.w) := by
  unfold fromImageN newPixelDataN
  split
  · simp only [Option.map_none, Option.isSome_none, Bool.false_eq_true, false_iff]; omega
  · simp only [Option.map_some, Option.isSome_some, true_iff]; omega

/-- **C78**, the constructor (partial: IEEE arithmetic, images up to 4096 pixels a side): `DefaultAlgorithm` can return iff the image is at least 4 pixels high and, unless it
is exactly 4 pixels high, 4 pixels wide.  On smaller images it panics. -/
theorem c78_new_partial (S : DefaultOK r im n srt) (s0 : σ) : (∃ l a s, DefaultNew ieee srt z bf r im n s0 l a s) ↔ 4 ≤ im.maxY ∧ (im.maxY = 4 ∨ 4 ≤ im.maxX) := by
  constructor
  · rintro ⟨l, a, s, I, P, h1, h2, -⟩
    rw [S.image] at h1
    cases h1
    have : (fromImageN ieee.r64 (theImage im) 5).isSome := by rw [h2]; rfl
    rw [fromImageN_some] at this
    simp only [ofBytes] at this
    omega
  · intro h
    have : (fromImageN ieee.r64 (theImage im) 5).isSome := by
      rw [fromImageN_some]
      simp only [ofBytes]
      omega
    obtain ⟨P, hP⟩ := Option.isSome_iff_exists.mp this
    obtain ⟨⟨l, a, h⟩, -⟩ := c47_step_completes ((S.setting s0).setting z bf)
    exact ⟨l, a, _, _, P, S.image, hP, h, rfl⟩

/-- On images of fewer than 4 rows, or of more than 4 rows and fewer than 4 columns, the table of block sums panics, in any arithmetic. -/
theorem c78_small_false (fl : ℚ → ℚ) (I : Img) (h : I.h < 4 ∨ (4 < I.h ∧ I.w < 4)) : fromImageN fl I 5 = none := by
  have := (fromImageN_some (fl := fl) (I := I)).not.mpr (by omega)
  simpa using this

/-- **C78**, executions (partial: IEEE arithmetic, images up to 4096 pixels a side): after `DefaultAlgorithm` and any number of steps, under any schedules and whatever the random
numbers, the generation counts the steps, `Best()` is a group of the requested number of points of the unit square and the fittest member, the best
fitness is that of a triangulation of exactly these points evaluated without caches, it is at most 1 + 1/180000, on images of at most 6800000 pixels it is not
negative and positive iff there is a triangle, another step can be completed, and no step lowers it. -/
theorem c78_default_partial (S : DefaultOK r im n srt) {g : Nat} {a : Algo D Tri} {s : σ} (h : DefaultExec ieee srt z bf r im n s0 g a s) :
    a.gen = g ∧ a.pop.length = 400 ∧ a.best.length = n.toNat ∧ (∀ q ∈ a.best, (0 ≤ q.x ∧ q.x ≤ 1) ∧ 0 ≤ q.y ∧ q.y ≤ 1) ∧ (∀ v ∈ a.fit, v ≤ a.bestFit) ∧
      (∃ ops m d, Hist im.maxX.toNat im.maxY.toNat ops ↑(pix (rne 53) (theImage im) a.best) m ∧
        exec (gridGeo ieee im.maxX.toNat im.maxY.toNat) (rne 53) im.maxX.toNat im.maxY.toNat ops = some d ∧
        evalTris (rne 53) z (theImage im) 5 (iterTriangles d) = some a.bestFit ∧
        (im.maxX.toNat * im.maxY.toNat ≤ 6800000 → 0 ≤ a.bestFit ∧ (0 < a.bestFit ↔ iterTriangles d ≠ []))) ∧
      a.bestFit ≤ 1 + 1 / 180000 ∧
      (∃ l a' s', DefaultStep ieee srt z bf r im n l a s a' s') ∧
      ∀ l a' s', DefaultStep ieee srt z bf r im n l a s a' s' → a.bestFit ≤ a'.bestFit := by
  have E := default_exec S h
  have T := S.setting s0
  obtain ⟨h1, h2, h3⟩ := c44_triangles_partial T E
  obtain ⟨h4, h5, h6, h7⟩ := c43_triangles_partial T E
  rw [(draw_spec S.source n 400 s0).1] at h2
  obtain ⟨hl, hu⟩ := h3 a.best (List.mem_of_getElem? h4)
  obtain ⟨id, d, v, -, -, e1, e2, ⟨ops, m, d0, H, e0, hd⟩, -⟩ := c49_triangles_partial T E h4
  rw [h5] at e1
  cases e1
  have A : Arith (gridGeo ieee im.maxX.toNat im.maxY.toNat) (rne 53) im.maxX.toNat im.maxY.toNat ops := T.arith ops
  have k := S.size
  obtain ⟨v, u1, u2⟩ := c37_ieee_partial z (upperBytes im) (bs := 5) (by norm_num) (by norm_num) k.w1 k.h1 k.w2 k.h2 (mesh_of A H e0)
  rw [← hd, e2] at u1
  cases u1
  refine ⟨h1, h2, hl, hu, h7, ⟨ops, m, d0, H, e0, by rw [← hd]; exact e2, fun hwh => ?_⟩, u2, ?_, ?_⟩
  · obtain ⟨v, v1, v2, v3, v4⟩ := c73_triangulation_partial A H e0 hwh z (upperBytes im) (bs := 5) (by norm_num) (by norm_num)
    rw [← hd, e2] at v1
    cases v1
    refine ⟨?_, fun hp hn => ?_, v3⟩
    · by_cases hn : iterTriangles d0 = []
      · rw [v2 hn]
      · exact (v3 hn).le
    · rw [v2 hn] at hp
      exact lt_irrefl _ hp
  · obtain ⟨l, a', hs⟩ := (c47_step_completes (T.setting z bf)).2 g a _ E (default_mutator r ieee n 5 a.pop s _)
    exact ⟨l, a', _, _, S.image, hs, rfl⟩
  · rintro l a' s' ⟨I, i1, i2, -⟩
    rw [S.image] at i1
    cases i1
    exact c42_triangles_partial T E (default_mutator r ieee n 5 a.pop s _) i2

/-- **C78**, schedules (partial: IEEE arithmetic, images up to 4096 pixels a side): in every state of every evaluation, during construction or a step, no goroutine that can move
panics or blocks, something can move until all 400 results are received, and there is no data race. -/
theorem c78_schedules_partial (S : DefaultOK r im n srt) {b : Algo D Tri}
    (hb : simpleInit (draw r n 400 s0).1 22 = some b ∨
      ∃ g a s, DefaultExec ieee srt z bf r im n s0 g a s ∧ newGeneration (defaultMutator r ieee n 5 a.pop s) 5 a.pop.length a = some b)
    {l : List Who} {p : Ph D Tri} (h : Run (triFun (gridGeo ieee im.maxX.toNat im.maxY.toNat) (rne 53) z (theImage im) 5 bf) b.pop.length (ptsOf b) (mutsOf b) (Ph.start b.sys) l p) :
    (∀ w, Enabled b.pop.length p w →
      (move (triFun (gridGeo ieee im.maxX.toNat im.maxY.toNat) (rne 53) z (theImage im) 5 bf) b.pop.length (ptsOf b) (mutsOf b) p w).isSome) ∧
    p.chan.length ≤ b.pop.length ∧ (¬ p.Finished b.pop.length → ∃ w, Enabled b.pop.length p w) ∧
    ¬ ∃ w w', w ≠ w' ∧ Enabled b.pop.length p w ∧ Enabled b.pop.length p w' ∧ ∃ x ∈ writes b.pop.length p w,
      x ∈ reads (triFun (gridGeo ieee im.maxX.toNat im.maxY.toNat) (rne 53) z (theImage im) 5 bf) b.pop.length p w' ∨ x ∈ writes b.pop.length p w' := by
  have T := S.setting s0
  have E : EvalStart (triFun (gridGeo ieee im.maxX.toNat im.maxY.toNat) (rne 53) z (theImage im) 5 bf) srt 5 (MutOK Unit01 n.toNat) (draw r n 400 s0).1 22 b := by
    rcases hb with hb | ⟨g, a, s, h1, h2⟩
    · exact Or.inl hb
    · exact Or.inr ⟨g, a, _, default_exec S h1, default_mutator _ _ _ _ _ _ _, h2⟩
  obtain ⟨bound, hB⟩ := c47_triangles_partial T E
  obtain ⟨h1, h2, h3, -, -⟩ := hB l p h
  exact ⟨h1, h2, h3, c48_triangles_partial T E h⟩

end

/-! ### The theorems apply -/


theorem gradient_ok : DefaultOK counter ⟨6, 5, fun x y => (min 65535 (8191 * x), min 65535 (13107 * y), 65535)⟩ 30 someSorter :=
  ⟨counter_ok, fun x y => ⟨min_le_left _ _, min_le_left _ _, le_rfl⟩, by norm_num, by norm_num, by norm_num, by norm_num, someSorter_ok⟩

/-- Executions of every length exist. -/
example (g : Nat) : ∃ a s, DefaultExec ieee someSorter 0 (fun _ _ => ⟨[], [], fun _ _ => [], fun _ => []⟩) counter
    ⟨6, 5, fun x y => (min 65535 (8191 * x), min 65535 (13107 * y), 65535)⟩ 30 7 g a s := by
  induction g with
  | zero =>
    obtain ⟨l, a, s, h⟩ := (c78_new_partial gradient_ok 7).mpr (by norm_num)
    exact ⟨a, s, .new h⟩
  | succ g ih =>
    obtain ⟨a, s, h⟩ := ih
    obtain ⟨-, -, -, -, -, -, -, ⟨l, a', s', hs⟩, -⟩ := c78_default_partial gradient_ok h
    exact ⟨a', s', .step h hs⟩

/-- A 3 x 200 image makes `DefaultAlgorithm` panic. -/
example : fromImageN (rne 53) (ofBytes (rne 53) 3 200 fun _ _ => (0, 0, 0)) 5 = none := c78_small_false _ _ (by simp [ofBytes])

end Verif.Props

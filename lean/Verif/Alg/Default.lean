import Verif.Alg.TriFun
import Verif.Alg.Algo
import Verif.Small.Model

/-!
# Model of `DefaultAlgorithm`

Image conversion, block sums, random members, the gaussian mutator with its random source, and the simple algorithm, put together
as in utils/default.go.
-/

namespace Verif.Alg

open Verif.Fit Verif.Small Verif.Float
open Verif.Incr hiding trunc step run Entry

/-- rgbdata.go 39-54 `ToData`, as the `image.Data` it returns.  `RGBAt` (rgbdata.go 17-19) is only called inside the image; the model has a black pixel
elsewhere. -/
def imageOf (fl : ℚ → ℚ) (im : Source16) : Option Img :=
  (toData fl im).map fun d => ⟨d.1.toNat, d.2.1.toNat, fun x y =>
    ((d.2.2[y]?).bind fun row => row[x]?).getD ⟨convertColor fl 0, convertColor fl 0, convertColor fl 0⟩⟩

/-- pixels.go 69-78 `newPixelDataN`: the numbers of rows and columns.  `none` is the panic of `make` with a negative length; columns are only
made if there is a row. -/
def newPixelDataN (w h n : Nat) : Option (Nat × Nat) :=
  if (h : Int) - n + 1 < 0 ∨ (0 < (h : Int) - n + 1 ∧ (w : Int) - n + 1 < 0) then none
  else some (((h : Int) - n + 1).toNat, ((w : Int) - n + 1).toNat)

/-- pixels.go 81-102 `fromImageN`: rows of block sums. -/
def fromImageN (fl : ℚ → ℚ) (I : Img) (n : Nat) : Option (List (List Pixel)) :=
  (newPixelDataN I.w I.h n).map fun s => (List.range s.1).map fun y => (List.range s.2).map fun x => blockAt fl I n x y

/-- pixels.go 37-56 `fromImage`: rows of pixels. -/
def fromImage (fl : ℚ → ℚ) (I : Img) : List (List Pixel) :=
  (List.range I.h).map fun y => (List.range I.w).map fun x => mkPixel fl (I.px x y)

/-- The callbacks look blocks up in the table of `fromImageN` (triangles.go 128, polygons.go 124). -/
theorem sumStep_block {fl : ℚ → ℚ} {I : Img} {bs : Nat} {P : List (List Pixel)} (h : fromImageN fl I bs = some P) (s : Sums) (x y : Int) :
    sumStep fl I bs s (.block x y) = if 0 ≤ y ∧ 0 ≤ x then ((P[y.toNat]?).bind fun row => row[x.toNat]?).map (s.add (bs * bs)) else none := by
  unfold fromImageN newPixelDataN at h
  split at h
  · cases h
  · rename_i hc
    simp only [Option.map_some, Option.some.injEq] at h
    subst h
    simp only [sumStep]
    by_cases h0 : 0 ≤ y ∧ 0 ≤ x
    · rw [if_pos h0]
      by_cases hy : y < (I.h : Int) - bs + 1
      · have e1 : ((List.range ((I.h : Int) - bs + 1).toNat).map fun y => (List.range ((I.w : Int) - bs + 1).toNat).map fun x => blockAt fl I bs x y)[y.toNat]? =
            some ((List.range ((I.w : Int) - bs + 1).toNat).map fun x => blockAt fl I bs x y.toNat) := by
          rw [List.getElem?_map, List.getElem?_range (by omega)]; rfl
        rw [e1, Option.bind_some]
        by_cases hx : x < (I.w : Int) - bs + 1
        · rw [if_pos ⟨h0.1, hy, h0.2, hx⟩, List.getElem?_map, List.getElem?_range (by omega)]; rfl
        · rw [if_neg (by omega), List.getElem?_eq_none (by simp; omega)]; rfl
      · rw [if_neg (by omega), List.getElem?_eq_none (by simp; omega)]; rfl
    · rw [if_neg (by omega), if_neg h0]

/-- The callbacks look pixels up in the table of `fromImage` (triangles.go 116-127, polygons.go 112-123): a row out of range panics; the
pixels are added if the line lies inside the row. -/
theorem sumStep_line {fl : ℚ → ℚ} {I : Img} {bs : Nat} (s : Sums) (x0 x1 y : Int) :
    sumStep fl I bs s (.line x0 x1 y) = if 0 ≤ y then ((fromImage fl I)[y.toNat]?).bind fun row =>
      (if 0 ≤ x0 ∧ x1 ≤ row.length then (Raster.rows x0 x1).foldlM (fun s x => (row[x.toNat]?).map (s.add 0)) s else some s).map fun s' =>
        { s' with n := s'.n + (x1 - x0) } else none := by
  unfold fromImage
  simp only [sumStep]
  by_cases hy : 0 ≤ y
  · rw [if_pos hy]
    by_cases hh : y < I.h
    · rw [if_pos ⟨hy, hh⟩, List.getElem?_map, List.getElem?_range (by omega)]
      simp only [Option.map_some, Option.bind_some, List.length_map, List.length_range]
      by_cases hx : 0 ≤ x0 ∧ x1 ≤ I.w
      · rw [if_pos hx, if_pos hx]
        have key : ∀ (l : List Int) (s : Sums), (∀ x ∈ l, 0 ≤ x ∧ x < I.w) →
            l.foldlM (fun s x => (((List.range I.w).map fun x => mkPixel fl (I.px x y.toNat))[x.toNat]?).map (s.add 0)) s =
              some (l.foldl (fun s x => s.add 0 (mkPixel fl (I.px x.toNat y.toNat))) s) := by
          intro l
          induction l with
          | nil => intro s _; rfl
          | cons x l ih =>
            intro s hl
            have hx := hl x (by simp)
            rw [List.foldlM_cons, List.getElem?_map, List.getElem?_range (by omega)]
            exact ih _ (fun y hy => hl y (by simp [hy]))
        rw [key _ _ (fun x hx' => by have := Raster.mem_rows.mp hx'; omega)]
        rfl
      · rw [if_neg hx, if_neg hx]; rfl
    · rw [if_neg (by omega), List.getElem?_eq_none (by simp; omega)]; rfl
  · rw [if_neg hy, if_neg (by omega)]

section
variable {σ : Type}

/-- simple.go 150-154 with the `pointFactory` of default.go 18-20: `m` members of `n` random points, and the state of the source. -/
def draw (r : Source σ) (n : Int) : Nat → σ → List (List NP) × σ
  | 0, s => ([], s)
  | m + 1, s =>
    let p := draw r n m s
    let q := randomPoints r n.toNat p.2
    (p.1 ++ [q.1], q.2)

/-- gaussian.go 40-42 `DefaultGaussianMethod`: the rate, `2 / float32(numPoints)`.  For 0 points the Go value is infinite; it is then never used. -/
def defaultRate (F : FloatOps) (n : Int) : ℚ := F.r32 (2 / F.r32 n)

/-- simple.go 107-118: the state of the random source before the `m`-th mutation of a generation; its base is member `m % cutoff`.  The amount 0.3 is
the rounded constant of gaussian.go 41. -/
def mutState (r : Source σ) (F : FloatOps) (n : Int) (cutoff : Nat) (pop : List (List NP)) (s : σ) : Nat → σ
  | 0 => s
  | m + 1 => (gaussian r F.r64 (defaultRate F n) (F.r64 (3 / 10)) (mutState r F n cutoff pop s m) (pop.getD (m % cutoff) [])).2.2

/-- The mutations of one generation: member `i` is made by the mutation `i - cutoff`. -/
def defaultMutator (r : Source σ) (F : FloatOps) (n : Int) (cutoff : Nat) (pop : List (List NP)) (s : σ) : Mutator := fun i ps =>
  let x := gaussian r F.r64 (defaultRate F n) (F.r64 (3 / 10)) (mutState r F n cutoff pop s (i - cutoff)) ps
  (x.1, x.2.1)

/-- default.go 15-32 `DefaultAlgorithm` under the schedule `l`, and the state of the random source before and after.  `mutation` and `generator` use different
sources, which are both parts of the state. -/
def DefaultNew (F : FloatOps) (srt : Sorter) (z : ℚ) (bf : D → D → Bufs) (r : Source σ) (im : Source16) (n : Int) (s : σ) (l : List Who) (a : Algo D Tri) (s' : σ) : Prop :=
  ∃ I P, imageOf F.r64 im = some I ∧ fromImageN F.r64 I 5 = some P ∧
    NewSimple (triFun (gridGeo F I.w I.h) F.r64 z I 5 bf) srt (draw r n 400 s).1 22 l a ∧ s' = (draw r n 400 s).2

/-- A `Step` of the algorithm that `DefaultAlgorithm` returns. -/
def DefaultStep (F : FloatOps) (srt : Sorter) (z : ℚ) (bf : D → D → Bufs) (r : Source σ) (im : Source16) (n : Int) (l : List Who) (a : Algo D Tri) (s : σ) (a' : Algo D Tri)
    (s' : σ) : Prop :=
  ∃ I, imageOf F.r64 im = some I ∧ SimpleStep (triFun (gridGeo F I.w I.h) F.r64 z I 5 bf) srt 5 (defaultMutator r F n 5 a.pop s) l a a' ∧
    s' = mutState r F n 5 a.pop s (400 - 5)

/-- `DefaultAlgorithm` followed by any number of `Step`s. -/
inductive DefaultExec (F : FloatOps) (srt : Sorter) (z : ℚ) (bf : D → D → Bufs) (r : Source σ) (im : Source16) (n : Int) (s0 : σ) : Nat → Algo D Tri → σ → Prop where
  | new {l a s} : DefaultNew F srt z bf r im n s0 l a s → DefaultExec F srt z bf r im n s0 0 a s
  | step {g l a s a' s'} : DefaultExec F srt z bf r im n s0 g a s → DefaultStep F srt z bf r im n l a s a' s' →
      DefaultExec F srt z bf r im n s0 (g + 1) a' s'

end

end Verif.Alg

import Verif.Props.FitnessRange
import Verif.Props.Cache

/-!
# C113: the evaluation of points does not depend on overflow and subnormal numbers
-/

namespace Verif.Props

open Verif.Tri Verif.Spec Verif.Float Verif.Raster Verif.Fit Verif.Alg
open Verif.Incr hiding trunc step run Entry

variable {fl : ℚ → ℚ} {z : ℚ} {w h : Nat}

/-- A coordinate of a `NormPoint` (normpoint.go 9-13): zero, or a normal number up to 1. -/
def NormalCoord (x : ℚ) : Prop := x = 0 ∨ (2 : ℚ) ^ (-1022 : ℤ) ≤ x ∧ x ≤ 1

theorem NormalCoord.unit {x : ℚ} (hx : NormalCoord x) : 0 ≤ x ∧ x ≤ 1 := by
  rcases hx with rfl | ⟨a, b⟩
  · norm_num
  · exact ⟨(zpow_pos (by norm_num) _).le.trans a, b⟩

theorem fastRound_normal (N : Normal64 fl) (hw : w ≤ 32767) {x : ℚ} (hx : NormalCoord x) :
    fastRound fl (fl (x * w)) = fastRound (rne 53) (rne 53 (x * w)) := by
  have x0 := hx.unit
  have m : Mag (-1022) 15 (x * w) := by
    have a : Mag (-1022) 0 x := by
      rcases hx with e | ⟨a, b⟩
      · exact Or.inl e
      · exact Or.inr ⟨by rw [abs_of_nonneg x0.1]; exact a, by rw [abs_of_nonneg x0.1]; simpa using b⟩
    have b : Mag 0 15 (w : ℚ) := by
      have := (dy_int (n := (w : ℤ)) (b := 15) (by rw [abs_of_nonneg (by positivity)]; norm_num; omega)).mag
      simpa using this
    exact (a.mul b).mono (by norm_num) (by norm_num)
  obtain ⟨e1, q1⟩ := N.mag m (by norm_num) (by norm_num)
  have n1 : 0 ≤ rne 53 (x * w) := rne_nonneg (by norm_num) (mul_nonneg x0.1 (by positivity))
  have u := q1.le
  rw [abs_of_nonneg n1] at u
  have m2 : Mag (-1) 16 (rne 53 (x * w) + 1 / 2) := by
    right
    rw [abs_of_nonneg (by positivity)]
    norm_num at u ⊢
    constructor <;> linarith
  unfold fastRound
  rw [e1, (N.mag m2 (by norm_num) (by norm_num)).1]

/-- C113: the pixels of points. -/
theorem c113_pixels (N : Normal64 fl) (hw : w ≤ 32767) (hh : h ≤ 32767) {p : NP} (hx : NormalCoord p.x) (hy : NormalCoord p.y) :
    createPoint fl p w h = createPoint (rne 53) p w h := by
  unfold createPoint
  rw [fastRound_normal N hw hx, fastRound_normal N hh hy]

/-- C113: the first evaluation of a list of points.  With arithmetic that is IEEE arithmetic for normal numbers it yields the fitness, with
rounding of unbounded exponents, of a triangulation of the pixels that rounding of unbounded exponents gives. -/
theorem c113_first_call {F : FloatOps} (N : Normal F) (hz : Mag (-63) 63 z) (f : Nat → Nat → Fin 256 × Fin 256 × Fin 256) {bs : Nat} (hb : 1 ≤ bs) (hb' : bs ≤ 16)
    (k : SizeOk w h) (hn : side w h ≤ 4096) {bf : D → D → Bufs} {n c i : Nat} {ps : List NP} (hu : ∀ p ∈ ps, NormalCoord p.x ∧ NormalCoord p.y) (hl : ps.length ≤ 32767)
    {ms : List Mut} {v : ℚ} {s' : Sys D Tri}
    (hv : calculate (triFun (gridGeo F w h) F.r64 z (ofBytes F.r64 w h f) bs bf) (newParallel n c) i ps ms = some (v, s')) :
    ∃ d, exec (gridGeo F w h) F.r64 w h ((ps.map fun p => createPoint (rne 53) p w h).map .ins) = some d ∧
      Valid (gridGeo F w h) w h ↑(ps.map fun p => createPoint (rne 53) p w h) d ∧
      evalTris (rne 53) z (ofBytes (rne 53) w h f) bs (iterTriangles d) = some v := by
  have hw : w ≤ 32767 := k.w2.trans (by norm_num)
  have hh : h ≤ 32767 := k.h2.trans (by norm_num)
  obtain ⟨d, e, ev⟩ := c41_first_call hv
  have px : pix F.r64 (ofBytes F.r64 w h f) ps = ps.map fun p => createPoint (rne 53) p w h :=
    List.map_congr_left fun p hp => c113_pixels N.r64 hw hh (hu p hp).1 (hu p hp).2
  rw [px] at e
  have R : Rnd 53 (rne 53) := rne_rnd (by norm_num)
  obtain ⟨m, H⟩ := hist_ins (ps.map fun p => createPoint (rne 53) p w h) (Hist.nil (w := w) (h := h)) (by
    intro q hq
    obtain ⟨p, hp, rfl⟩ := List.mem_map.mp hq
    obtain ⟨a, b, c, d⟩ := c39_in_image R hw hh p ⟨(hu p hp).1.unit, (hu p hp).2.unit⟩
    exact ⟨a, b, c, d⟩) (by simpa using hl)
  rw [List.nil_append, zero_add] at H
  obtain ⟨d', e', V⟩ := c110_valid N k hn H
  have ed : d' = d := Option.some.inj (e'.symm.trans e)
  subst ed
  refine ⟨d', e', V, ?_⟩
  have M := mesh_of (arith_normal N (arith_ieee k hn)) H (by rw [← exec_normal N]; exact e')
  rw [← c112_fitness N.r64 hz f hb hb' hw hh M]
  exact ev

/-- A triangle function (triangles.go) with the arithmetic `flushing`, on an image of 4 x 4 pixels. -/
def flushFun : Fun D Tri :=
  triFun (gridGeo flushing 4 4) flushing.r64 0 (ofBytes flushing.r64 4 4 fun x y => if x < y then (7, 7, 7) else (9, 200, 0)) 1
    (fun _ _ => ⟨[], [], fun _ _ => [], fun _ => []⟩)

-- It evaluates four points, and the value is that of unbounded exponents.
example : (calculate flushFun (newParallel 1 3) 0 tinyPoints []).isSome = true := by decide +kernel
example {v : ℚ} {s' : Sys D Tri} (hv : calculate flushFun (newParallel 1 3) 0 tinyPoints [] = some (v, s')) :
    ∃ d, evalTris (rne 53) 0 (ofBytes (rne 53) 4 4 fun x y => if x < y then (7, 7, 7) else (9, 200, 0)) 1 (iterTriangles d) = some v := by
  obtain ⟨d, -, -, e⟩ := c113_first_call flushing_normal (Or.inl rfl) _ (by norm_num) (by norm_num) (w := 4) (h := 4)
    ⟨by norm_num, by norm_num, by norm_num, by norm_num, by norm_num⟩ (by decide) (by
      intro p hp
      simp only [tinyPoints, List.mem_cons, List.not_mem_nil, or_false] at hp
      have low : (2 : ℚ) ^ (-1022 : ℤ) ≤ 1 / 4 := (two_mono (by norm_num : (-1022 : ℤ) ≤ -2)).trans (by norm_num)
      have big {x : ℚ} (h1 : 1 / 4 ≤ x) (h2 : x ≤ 1) : NormalCoord x := Or.inr ⟨low.trans h1, h2⟩
      rcases hp with rfl | rfl | rfl | rfl
      · exact ⟨Or.inl rfl, Or.inl rfl⟩
      · exact ⟨big (by norm_num) (by norm_num), big (by norm_num) (by norm_num)⟩
      · exact ⟨Or.inl rfl, big (by norm_num) (by norm_num)⟩
      · exact ⟨big (by norm_num) (by norm_num), big (by norm_num) (by norm_num)⟩) (by decide) hv
  exact ⟨d, e⟩
example : createPoint flushing.r64 ⟨1 / 3, 2 / 3⟩ 500 400 = ⟨167, 267⟩ := by decide +kernel

end Verif.Props

import Verif.Vor.Inv

/-!
# The vertices of the polygons
-/

namespace Verif.Vor

open Verif.Incr hiding Entry
open Verif.Float Verif.Spec

variable {F : FloatOps} {w h : Nat}

/-- The four edges. -/
theorem mem_edges {e : (FP × FP) × Nat} (he : e ∈ (edges w h).zipIdx) :
    e.1 = ((0, 0), ((w : ℚ), 0)) ∨ e.1 = (((w : ℚ), 0), ((w : ℚ), (h : ℚ))) ∨ e.1 = (((w : ℚ), (h : ℚ)), (0, (h : ℚ))) ∨
      e.1 = ((0, (h : ℚ)), (0, 0)) := by
  have : e.1 ∈ edges w h := List.fst_mem_of_mem_zipIdx he
  simpa [edges] using this

/-- What is known of the vertices of a clipped polygon: corners inside, intersections, accepted corners of the image. -/
inductive ClipVertex (F : FloatOps) (w h : Nat) (pts : List FP) : FP → Prop
  | corner {c} : c ∈ pts → outside F w h c = false → ClipVertex F w h pts c
  | cut {a b q} {e : FP × FP} : (a, b) ∈ pairs pts → e ∈ edges w h → segmentsIntersect F e.1 e.2 a b = some q → ClipVertex F w h pts q
  | image {e : FP × FP} : e ∈ edges w h → polygonPointIntersect F pts e.2 = true → ClipVertex F w h pts e.2

theorem foldl_inv {α β : Type} {P : β → Prop} (f : β → α → β) : ∀ (l : List α) (b : β), P b → (∀ b, ∀ a ∈ l, P b → P (f b a)) →
    P (l.foldl f b)
  | [], _, h, _ => h
  | a :: l, b, h, hf => foldl_inv f l (f b a) (hf b a (by simp) h) fun b x hx => hf b x (by simp [hx])

theorem clipPoints_vertex (pts : List FP) : ∀ c ∈ clipPoints F w h pts, ClipVertex F w h pts c := by
  unfold clipPoints
  simp only
  refine foldl_inv (P := fun l => ∀ c ∈ l, ClipVertex F w h pts c) _ _ _ ?_ ?_
  · unfold clipSides
    refine foldl_inv (P := fun st : List FP × List Bool => ∀ c ∈ st.1, ClipVertex F w h pts c) _ _ _ (by simp) ?_
    rintro st ⟨a, b⟩ hab hst
    unfold sideStep
    refine foldl_inv (P := fun st : List FP × List Bool => ∀ c ∈ st.1, ClipVertex F w h pts c) _ _ _ ?_ ?_
    · simp only
      split_ifs with ho
      · exact hst
      · intro c hc
        rcases List.mem_append.mp hc with hc | hc
        · exact hst c hc
        · rw [List.mem_singleton] at hc
          subst hc
          exact .corner (List.of_mem_zip hab).1 (by simpa using ho)
    · intro st e he hst
      unfold edgeStep
      cases hq : segmentsIntersect F e.1.1 e.1.2 a b with
      | none => exact hst
      | some q =>
        simp only
        split_ifs
        · intro c hc
          rcases List.mem_append.mp hc with hc | hc
          · exact hst c hc
          · rw [List.mem_singleton] at hc
            subst hc
            exact .cut hab (List.fst_mem_of_mem_zipIdx he) hq
        · exact hst
        · exact hst
  · intro l e he hl
    unfold cornerStep
    split_ifs with hc
    · intro c hm
      rcases List.mem_append.mp hm with hm | hm
      · exact hl c hm
      · rw [List.mem_singleton] at hm
        subst hm
        simp only [Bool.and_eq_true] at hc
        exact .image (List.fst_mem_of_mem_zipIdx he) hc.2
    · exact hl

/-- The vertices of the polygon of a point. -/
theorem cellPoly_vertex {srt : Sorter} (hp : ∀ c l l', srt c l = some l' → l'.Perm l) {p : Pt} {cs l : List FP}
    (hl : cellPoly F srt w h p cs (cs.any (outside F w h)) = some l) :
    ∃ pts, srt (cmp F ((p.x : ℚ), (p.y : ℚ))) cs = some pts ∧ ∀ c ∈ l, ClipVertex F w h pts c := by
  unfold cellPoly at hl
  cases hs : srt (cmp F ((p.x : ℚ), (p.y : ℚ))) cs with
  | none => rw [hs] at hl; cases hl
  | some pts =>
    rw [hs] at hl
    simp only [Option.bind_eq_bind, Option.bind_some] at hl
    refine ⟨pts, rfl, fun c hc => ?_⟩
    cases ha : cs.any (outside F w h) with
    | false =>
      rw [ha] at hl
      simp only [Bool.false_eq_true, if_false, Option.pure_def, Option.some_inj] at hl
      subst hl
      refine .corner hc ?_
      have := (List.any_eq_false.mp ha) c ((hp _ _ _ hs).mem_iff.mp hc)
      simpa using this
    | true =>
      rw [ha] at hl
      simp only [if_true] at hl
      exact clipPoints_vertex pts c ((hp _ _ _ hl).mem_iff.mp hc)

variable (R : Rnd 53 F.r64) (k : SizeOk w h)

include R

theorem r64_nat {n : Nat} (hn : n ≤ 8191) : F.r64 n = n := R.fix _ ⟨n, 0, by
  rw [abs_of_nonneg (by positivity)]
  have : (n : ℤ) ≤ 8191 := by exact_mod_cast hn
  norm_num
  omega, by simp⟩

theorem r64_negnat {n : Nat} (hn : n ≤ 8191) : F.r64 (-n) = -n := R.fix _ ⟨-n, 0, by
  rw [abs_neg, abs_of_nonneg (by positivity)]
  have : (n : ℤ) ≤ 8191 := by exact_mod_cast hn
  norm_num
  omega, by simp⟩

theorem r64_0 : F.r64 0 = 0 := (r64_zero R).mpr rfl

theorem eps_pos : 0 < eps F := (r64_pos R).mpr (by norm_num)

/-- One coordinate of an intersection with an edge. -/
theorem cut_coord {n : Nat} (hn : n ≤ 8191) {t : ℚ} (h0 : 0 ≤ t) (h1 : t ≤ 1) :
    (0 ≤ F.r64 (0 + F.r64 (t * n)) ∧ F.r64 (0 + F.r64 (t * n)) ≤ n) ∧
      (0 ≤ F.r64 (n + F.r64 (t * (-n))) ∧ F.r64 (n + F.r64 (t * (-n))) ≤ n) := by
  have hn0 : (0 : ℚ) ≤ n := by positivity
  have a1 : 0 ≤ F.r64 (t * n) := by rw [← r64_0 R]; exact R.mono _ _ (by positivity)
  have a2 : F.r64 (t * n) ≤ n := by
    refine le_trans (R.mono _ n ?_) (r64_nat R hn).le
    nlinarith
  have b1 : F.r64 (t * (-n)) ≤ 0 := by rw [← r64_0 R]; exact R.mono _ _ (by nlinarith)
  have b2 : -(n : ℚ) ≤ F.r64 (t * (-n)) := by
    refine le_trans (r64_negnat R hn).ge (R.mono _ _ ?_)
    nlinarith
  refine ⟨⟨?_, ?_⟩, ?_, ?_⟩
  · exact le_trans (r64_0 R).ge (R.mono 0 _ (by linarith))
  · exact le_trans (R.mono _ n (by linarith)) (r64_nat R hn).le
  · exact le_trans (r64_0 R).ge (R.mono 0 _ (by linarith))
  · exact le_trans (R.mono _ n (by linarith)) (r64_nat R hn).le

include k

/-- Intersections with an edge of the image are on the boundary of the image. -/
theorem cut_image {e : FP × FP} (he : e ∈ edges w h) {a b q : FP} (hq : segmentsIntersect F e.1 e.2 a b = some q) :
    (0 ≤ q.1 ∧ q.1 ≤ w ∧ 0 ≤ q.2 ∧ q.2 ≤ h) ∧ (q.1 = 0 ∨ q.1 = w ∨ q.2 = 0 ∨ q.2 = h) := by
  have hw := k.w2
  have hh := k.h2
  obtain ⟨t, t0, t1, rfl⟩ : ∃ t, 0 ≤ t ∧ t ≤ 1 ∧
      q = (F.r64 (e.1.1 + F.r64 (t * F.r64 (e.2.1 - e.1.1))), F.r64 (e.1.2 + F.r64 (t * F.r64 (e.2.2 - e.1.2)))) := by
    unfold segmentsIntersect at hq
    simp only at hq
    split_ifs at hq with h1 h2
    exact ⟨_, h2.2.2.1, h2.2.2.2, (Option.some.inj hq).symm⟩
  have cw := cut_coord R hw t0 t1
  have ch := cut_coord R hh t0 t1
  have w0 : (0 : ℚ) ≤ w := by positivity
  have h0 : (0 : ℚ) ≤ h := by positivity
  have z := r64_0 R
  have nw := r64_nat R hw
  have nh := r64_nat R hh
  have mw := r64_negnat R hw
  have mh := r64_negnat R hh
  simp only [edges, List.mem_cons, List.not_mem_nil, or_false] at he
  rcases he with rfl | rfl | rfl | rfl
  · simp only [sub_zero, nw, sub_self, z, mul_zero, add_zero]
    exact ⟨⟨cw.1.1, cw.1.2, le_refl _, h0⟩, by simp⟩
  · simp only [sub_zero, nh, sub_self, z, mul_zero, add_zero, nw]
    exact ⟨⟨w0, le_refl _, ch.1.1, ch.1.2⟩, by simp⟩
  · simp only [zero_sub, mw, sub_self, z, mul_zero, add_zero, nh]
    exact ⟨⟨cw.2.1, cw.2.2, h0, le_refl _⟩, by simp⟩
  · simp only [zero_sub, mh, sub_self, z, mul_zero, add_zero]
    exact ⟨⟨le_refl _, w0, ch.2.1, ch.2.2⟩, by simp⟩

theorem clipVertex_bounds {pts : List FP} {c : FP} (hc : ClipVertex F w h pts c) :
    -eps F ≤ c.1 ∧ c.1 ≤ F.r64 (w + eps F) ∧ -eps F ≤ c.2 ∧ c.2 ≤ F.r64 (h + eps F) := by
  have he := eps_pos R
  have bw : (w : ℚ) ≤ F.r64 (w + eps F) := le_trans (r64_nat R k.w2).ge (R.mono _ _ (by linarith))
  have bh : (h : ℚ) ≤ F.r64 (h + eps F) := le_trans (r64_nat R k.h2).ge (R.mono _ _ (by linarith))
  have img : ∀ q : FP, 0 ≤ q.1 → q.1 ≤ w → 0 ≤ q.2 → q.2 ≤ h →
      -eps F ≤ q.1 ∧ q.1 ≤ F.r64 (w + eps F) ∧ -eps F ≤ q.2 ∧ q.2 ≤ F.r64 (h + eps F) :=
    fun q a b c d => ⟨by linarith, by linarith, by linarith, by linarith⟩
  have w0 : (0 : ℚ) ≤ w := by positivity
  have h0 : (0 : ℚ) ≤ h := by positivity
  cases hc with
  | corner _ ho =>
    unfold outside at ho
    simp only [decide_eq_false_iff_not, not_or, not_lt] at ho
    exact ⟨ho.1, ho.2.2.1, ho.2.1, ho.2.2.2⟩
  | cut _ he' hq =>
    obtain ⟨⟨a, b, c, d⟩, -⟩ := cut_image R k he' hq
    exact img _ a b c d
  | @image e he' _ =>
    simp only [edges, List.mem_cons, List.not_mem_nil, or_false] at he'
    rcases he' with rfl | rfl | rfl | rfl <;> exact img _ (by simp) (by simp) (by simp) (by simp)

end Verif.Vor

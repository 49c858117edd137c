import Verif.Props.VorGeom
import Verif.Vor.Cell

/-!
# The reported polygons and the Voronoi cells (C71, C72)

The cell of a stored point `q` is the set of the locations of the plane that are no nearer to any other stored point.
-/

namespace Verif.Props

open Verif.Tri Verif.Spec Verif.Float Verif.Vor
open Verif.Incr hiding Entry

variable {srt : Sorter} {w h : Nat} {ops : List Op} {s : Multiset Pt} {m : Nat} {v : V}

/-- What is stored for a point, without rounding. -/
theorem exact_cell (k : SizeOk w h) (H : Hist w h ops s m) (S : SorterOK srt)
    (e : vExec (gridGeo exactOps w h) exactOps srt w h ops = some v) {q : Pt} {l : List FP} (hl : (q, l) ∈ v.pm.flatten) :
    InImg w h q ∧ ∃ cs pts, ListsCorners exactOps w h s q cs ∧ pts.Perm cs ∧
      pts.Pairwise (fun a b => cmp exactOps ((q.x : ℚ), (q.y : ℚ)) a b = some true) ∧
      cellPoly exactOps srt w h q cs (cs.any (outside exactOps w h)) = some l ∧
      srt (cmp exactOps ((q.x : ℚ), (q.y : ℚ))) cs = some pts := by
  have I := (varith_exact k).inv H e
  obtain ⟨f, f1, f2, _⟩ := I.rep
  obtain ⟨hq, cs, c1, c2⟩ := f2 q l ((f1.flatten q l).mp hl)
  obtain ⟨pts, p1, p2, p3⟩ := sort_unique (F := exactOps) (id_rnd 53) S c1.1 (no_clash_list (exact_no_clash exactOps_exact w h s q) c1)
  exact ⟨H.img q hq, cs, pts, c1, p1, p2, c2, p3 cs (List.Perm.refl _)⟩

/-- **C71**: without rounding, every location of the convex hull of the polygon of a point is at least as near to this point as to
every other stored point. -/
theorem c71_inside_cell (k : SizeOk w h) (H : Hist w h ops s m) (S : SorterOK srt)
    (e : vExec (gridGeo exactOps w h) exactOps srt w h ops = some v) {q : Pt} {l : List (ℚ × ℚ)} (hl : (q, l) ∈ v.pm.flatten)
    {r : ℚ × ℚ} (hr : r ∈ convexHull ℚ {a | a ∈ l}) : ∀ x ∈ s, d2 ⟨r.1, r.2⟩ q ≤ d2 ⟨r.1, r.2⟩ x := by
  obtain ⟨hq, cs, pts, c1, p1, p2, c2, p3⟩ := exact_cell k H S e hl
  obtain ⟨pts', p3', hv⟩ := cellPoly_vertex S.perm c2
  rw [p3] at p3'
  cases p3'
  intro x hx
  have : convexHull ℚ {a | a ∈ l} ⊆ {r : ℚ × ℚ | InCell w h s q ⟨r.1, r.2⟩} :=
    convexHull_min (fun c hc => clipVertex_cell exactOps_exact k hq c1 p1 p2 (hv c hc)) inCell_convex
  exact this hr x (Or.inl hx)

/-- **C71**: the convex hulls of the polygons of two points meet at most on the bisector of the two points. -/
theorem c71_disjoint (k : SizeOk w h) (H : Hist w h ops s m) (S : SorterOK srt)
    (e : vExec (gridGeo exactOps w h) exactOps srt w h ops = some v) {q q' : Pt} {l l' : List (ℚ × ℚ)} (hl : (q, l) ∈ v.pm.flatten)
    (hl' : (q', l') ∈ v.pm.flatten) {r : ℚ × ℚ} (hr : r ∈ convexHull ℚ {a | a ∈ l}) (hr' : r ∈ convexHull ℚ {a | a ∈ l'}) :
    d2 ⟨r.1, r.2⟩ q = d2 ⟨r.1, r.2⟩ q' := by
  have one := c22_one_each_partial (varith_exact k) H e
  exact le_antisymm (c71_inside_cell k H S e hl hr q' ((one.2 q').mp ⟨_, hl'⟩))
    (c71_inside_cell k H S e hl' hr' q ((one.2 q).mp ⟨_, hl⟩))

example : ∃ v l, vExec (gridGeo exactOps 40 30) exactOps goSort 40 30 demoOps = some v ∧ (⟨10, 10⟩, l) ∈ v.pm.flatten ∧
    ∀ r ∈ convexHull ℚ {a | a ∈ l}, d2 ⟨r.1, r.2⟩ ⟨10, 10⟩ ≤ d2 ⟨r.1, r.2⟩ ⟨30, 10⟩ := by
  obtain ⟨v, e, one⟩ := c22_exact demo_size demo_hist goSort_ok
  obtain ⟨l, hl⟩ := (one.2 ⟨10, 10⟩).mpr (by decide)
  exact ⟨v, l, e, hl, fun r hr => c71_inside_cell demo_size demo_hist goSort_ok e hl hr _ (by decide)⟩

/-- The image as a part of the plane. -/
def InRect (w h : Nat) (r : ℚ × ℚ) : Prop := 0 ≤ r.1 ∧ r.1 ≤ w ∧ 0 ≤ r.2 ∧ r.2 ≤ h

/-- **C72**: without rounding, if all corners of the cell of `q` are in the image, then its polygon is strictly convex,
counterclockwise, and the locations of the polygon are exactly the locations of the image that are no nearer to any other stored
point. -/
theorem c72_cell (k : SizeOk w h) (h4 : 4 ≤ side w h) (H : Hist w h ops s m) (S : SorterOK srt)
    (e : vExec (gridGeo exactOps w h) exactOps srt w h ops = some v) {q : Pt} {l : List (ℚ × ℚ)} (hl : (q, l) ∈ v.pm.flatten)
    (hc : ∀ o, Corner w h s q o → InRect w h (o.x, o.y)) :
    ConvexPoly l ∧ ∀ r, r ∈ convexHull ℚ {a | a ∈ l} ↔ InRect w h r ∧ ∀ x ∈ s, d2 ⟨r.1, r.2⟩ q ≤ d2 ⟨r.1, r.2⟩ x := by
  obtain ⟨hq, cs, pts, c1, p1, p2, c2, p3⟩ := exact_cell k H S e hl
  have hin : ∀ c ∈ cs, InRect w h c := by
    intro c hm
    obtain ⟨o, ho, rfl⟩ := (c1.2 c).mp hm
    exact hc o ho
  have hno : cs.any (outside exactOps w h) = false := by
    rw [List.any_eq_false]
    intro c hm
    obtain ⟨a1, a2, a3, a4⟩ := hin c hm
    have : (0 : ℚ) < eps exactOps := eps_pos (id_rnd 53)
    unfold outside
    simp only [decide_eq_true_eq, not_or, not_lt, gt_iff_lt]
    have r : ∀ x, exactOps.r64 x = x := fun _ => rfl
    rw [r, r]
    exact ⟨by linarith, by linarith, by linarith, by linarith⟩
  have el : l = pts := by
    unfold cellPoly at c2
    rw [p3, hno] at c2
    simpa using c2.symm
  subst el
  have C := corners_convex exactOps_exact k hq c1 p1 p2
  have Hh := corners_hull exactOps_exact k hq c1 p1 p2
  refine ⟨C, fun r => ⟨fun hr => ⟨?_, fun x hx => (Hh r).mp hr x (Or.inl hx)⟩, ?_⟩⟩
  · have : convexHull ℚ {a | a ∈ l} ⊆ {r : ℚ × ℚ | InRect w h r} := by
      refine convexHull_min (fun c hm => hin c (p1.mem_iff.mp hm)) ?_
      rintro x ⟨x1, x2, x3, x4⟩ y ⟨y1, y2, y3, y4⟩ a b ha hb hab
      have eb : b = 1 - a := by linarith
      have hb' : 0 ≤ 1 - a := eb ▸ hb
      refine ⟨?_, ?_, ?_, ?_⟩ <;> simp only [Prod.fst_add, Prod.snd_add, Prod.smul_fst, Prod.smul_snd, smul_eq_mul, eb]
      · have := mul_nonneg ha x1; have := mul_nonneg hb' y1; linarith
      · have := mul_le_mul_of_nonneg_left x2 ha; have := mul_le_mul_of_nonneg_left y2 hb'; linarith
      · have := mul_nonneg ha x3; have := mul_nonneg hb' y3; linarith
      · have := mul_le_mul_of_nonneg_left x4 ha; have := mul_le_mul_of_nonneg_left y4 hb'; linarith
    exact this hr
  · rintro ⟨⟨r1, r2, r3, r4⟩, hn⟩
    refine (Hh r).mpr ?_
    rintro x (hx | hx)
    · exact hn x hx
    · exact super_farther k h4 hq (r := ⟨r.1, r.2⟩) r1 r2 r3 r4 hx

/-- **C72**: in particular, if the whole cell of `q` is in the image, then its polygon is the cell. -/
theorem c72_whole (k : SizeOk w h) (h4 : 4 ≤ side w h) (H : Hist w h ops s m) (S : SorterOK srt)
    (e : vExec (gridGeo exactOps w h) exactOps srt w h ops = some v) {q : Pt} {l : List (ℚ × ℚ)} (hl : (q, l) ∈ v.pm.flatten)
    (hc : ∀ r : ℚ × ℚ, (∀ x ∈ s, d2 ⟨r.1, r.2⟩ q ≤ d2 ⟨r.1, r.2⟩ x) → InRect w h r) :
    ∀ r, r ∈ convexHull ℚ {a | a ∈ l} ↔ ∀ x ∈ s, d2 ⟨r.1, r.2⟩ q ≤ d2 ⟨r.1, r.2⟩ x := by
  intro r
  rw [(c72_cell k h4 H S e hl fun o ho => hc (o.x, o.y) fun x hx => ho.2 x (Or.inl hx)).2 r]
  exact ⟨fun hr => hr.2, fun hr => ⟨hc r hr, hr⟩⟩

/-- A point and its four neighbours. -/
def starOps : List Op := [.ins ⟨20, 15⟩, .ins ⟨10, 15⟩, .ins ⟨30, 15⟩, .ins ⟨20, 5⟩, .ins ⟨20, 25⟩]

theorem star_hist : Hist 40 30 starOps {⟨20, 25⟩, ⟨20, 5⟩, ⟨30, 15⟩, ⟨10, 15⟩, ⟨20, 15⟩} 5 := by
  have h1 := Hist.nil (w := 40) (h := 30)
  have h2 := h1.ins ⟨20, 15⟩ ⟨by norm_num, by norm_num, by norm_num, by norm_num⟩ (by decide) (by decide)
  have h3 := h2.ins ⟨10, 15⟩ ⟨by norm_num, by norm_num, by norm_num, by norm_num⟩ (by decide) (by decide)
  have h4 := h3.ins ⟨30, 15⟩ ⟨by norm_num, by norm_num, by norm_num, by norm_num⟩ (by decide) (by decide)
  have h5 := h4.ins ⟨20, 5⟩ ⟨by norm_num, by norm_num, by norm_num, by norm_num⟩ (by decide) (by decide)
  exact h5.ins ⟨20, 25⟩ ⟨by norm_num, by norm_num, by norm_num, by norm_num⟩ (by decide) (by decide)

/-- The cell of the middle point of the star is in the image. -/
theorem star_whole (r : ℚ × ℚ) (hr : ∀ x ∈ ({⟨20, 25⟩, ⟨20, 5⟩, ⟨30, 15⟩, ⟨10, 15⟩, ⟨20, 15⟩} : Multiset Pt),
    d2 ⟨r.1, r.2⟩ ⟨20, 15⟩ ≤ d2 ⟨r.1, r.2⟩ x) : InRect 40 30 r := by
  have a := hr ⟨20, 25⟩ (by decide)
  have b := hr ⟨20, 5⟩ (by decide)
  have c := hr ⟨30, 15⟩ (by decide)
  have d := hr ⟨10, 15⟩ (by decide)
  unfold d2 at a b c d
  push_cast at a b c d
  refine ⟨?_, ?_, ?_, ?_⟩ <;> push_cast <;> linarith

example : ∃ v l, vExec (gridGeo exactOps 40 30) exactOps goSort 40 30 starOps = some v ∧ (⟨20, 15⟩, l) ∈ v.pm.flatten ∧
    ∀ r, r ∈ convexHull ℚ {a | a ∈ l} ↔ ∀ x ∈ ({⟨20, 25⟩, ⟨20, 5⟩, ⟨30, 15⟩, ⟨10, 15⟩, ⟨20, 15⟩} : Multiset Pt),
      d2 ⟨r.1, r.2⟩ ⟨20, 15⟩ ≤ d2 ⟨r.1, r.2⟩ x := by
  obtain ⟨v, e, one⟩ := c22_exact demo_size star_hist goSort_ok
  obtain ⟨l, hl⟩ := (one.2 ⟨20, 15⟩).mpr (by decide)
  exact ⟨v, l, e, hl, c72_whole demo_size (by decide) star_hist goSort_ok e hl star_whole⟩

/-- The polygon of the middle point. -/
example : ((vExec (gridGeo exactOps 40 30) exactOps goSort 40 30 starOps).map fun v =>
    (v.pm.flatten.filter fun e => decide (e.1 = ⟨20, 15⟩)).map Prod.snd) = some [[(15, 20), (15, 10), (25, 10), (25, 20)]] := by
  decide +kernel

end Verif.Props

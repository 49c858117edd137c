import Verif.Props.Voronoi
import Verif.Vor.Geom
import Verif.Vor.Bounds

/-!
# Segment intersection, point in polygon, and the vertices of the polygons (C25, C26, C70)
-/

namespace Verif.Props

open Verif.Tri Verif.Spec Verif.Float Verif.Vor
open Verif.Incr hiding Entry

variable {g : Geo} {F : FloatOps} {srt : Sorter} {w h : Nat} {ops : List Op} {s : Multiset Pt} {m : Nat} {v : V}

/-! ### C25 -/

/-- **C25**: without rounding, `segmentsIntersect` applied to two non-parallel segments reports the point `q` exactly if `q` is on
both segments; so it reports a point exactly if they share one. -/
theorem c25_intersect {a b c d : ℚ × ℚ} (hn : (b.1 - a.1) * (d.2 - c.2) ≠ (b.2 - a.2) * (d.1 - c.1)) (q : ℚ × ℚ) :
    segmentsIntersect exactOps a b c d = some q ↔ OnSeg a b q ∧ OnSeg c d q :=
  segments_iff (fun _ => rfl) (sub_ne_zero.mpr hn) q

theorem c25_reports {a b c d : ℚ × ℚ} (hn : (b.1 - a.1) * (d.2 - c.2) ≠ (b.2 - a.2) * (d.1 - c.1)) :
    (∃ q, segmentsIntersect exactOps a b c d = some q) ↔ ∃ q, OnSeg a b q ∧ OnSeg c d q :=
  exists_congr fun q => c25_intersect hn q

/-- Parallel segments are never reported, even if they overlap. -/
theorem c25_parallel {a b c d : ℚ × ℚ} (hn : (b.1 - a.1) * (d.2 - c.2) = (b.2 - a.2) * (d.1 - c.1)) :
    segmentsIntersect exactOps a b c d = none := by
  unfold segmentsIntersect exactOps
  simp only
  rw [if_pos (by linarith)]

example : segmentsIntersect exactOps (0, 0) (4, 4) (0, 4) (4, 0) = some (2, 2) ∧ OnSeg (0, 0) (4, 4) (2, 2) ∧ OnSeg (0, 4) (4, 0) (2, 2) := by
  have hn : ((4 : ℚ) - 0) * (0 - 4) ≠ (4 - 0) * (4 - 0) := by norm_num
  have e : segmentsIntersect exactOps (0, 0) (4, 4) (0, 4) (4, 0) = some (2, 2) := by decide +kernel
  exact ⟨e, (c25_intersect (a := (0, 0)) (b := (4, 4)) (c := (0, 4)) (d := (4, 0)) hn _).mp e⟩

example : segmentsIntersect exactOps (0, 0) (4, 4) (5, 0) (9, 1) = none := by decide +kernel

/-! ### C26 -/

/-- `q` is strictly on different sides of two edges of the polygon. -/
def BothSides (l : List (ℚ × ℚ)) (q : ℚ × ℚ) : Prop :=
  (∃ e ∈ pairs l, area e.1 e.2 q < 0) ∧ ∃ e ∈ pairs l, 0 < area e.1 e.2 q

theorem bothSides_iff (l : List (ℚ × ℚ)) (q : ℚ × ℚ) :
    BothSides l q ↔ (∃ e ∈ pairs l, 0 < crossD exactOps q e) ∧ ∃ e ∈ pairs l, crossD exactOps q e < 0 := by
  unfold BothSides
  simp only [crossD_area (F := exactOps) (fun _ => rfl), Left.neg_pos_iff, Left.neg_neg_iff]

/-- **C26 is false** for polygons that are not convex: (0, 4) is a vertex, but it is not accepted. -/
theorem c26_vertex_false : ((0, 4) : ℚ × ℚ) ∈ ([(0, 0), (4, 0), (1, 1), (4, 4), (0, 4)] : List (ℚ × ℚ)) ∧
    polygonPointIntersect exactOps [(0, 0), (4, 0), (1, 1), (4, 4), (0, 4)] (0, 4) = false := by
  decide +kernel

/-- **C26**, all polygons, one direction (partial: the other direction fails for some vertices). -/
theorem c26_accepts_partial (l : List (ℚ × ℚ)) (q : ℚ × ℚ) (h : polygonPointIntersect exactOps l q = true) : q ∈ l ∨ ¬ BothSides l q :=
  (ppi_vertex_or q h).imp_right fun h hb => h ((bothSides_iff l q).mp hb)

/-- **C26**, all polygons, points that are not strictly on different sides of two edges (partial: vertices that are may be rejected). -/
theorem c26_accepted_partial (l : List (ℚ × ℚ)) (q : ℚ × ℚ) (h : ¬ BothSides l q) : polygonPointIntersect exactOps l q = true :=
  ppi_of q fun hb => h ((bothSides_iff l q).mpr hb)

/-- **C26**, all polygons, points that are not vertices: accepted exactly if not strictly on different sides of two edges. -/
theorem c26_not_vertex (l : List (ℚ × ℚ)) (q : ℚ × ℚ) (hq : q ∉ l) : polygonPointIntersect exactOps l q = true ↔ ¬ BothSides l q :=
  ⟨fun h => (c26_accepts_partial l q h).resolve_left hq, c26_accepted_partial l q⟩

example : BothSides [(0, 0), (4, 0), (5, 3), (1, 4)] (5, 1) ∧ ¬ BothSides [(0, 0), (4, 0), (5, 3), (1, 4)] (2, 1) := by
  refine ⟨by_contra fun h => absurd (c26_accepted_partial [(0, 0), (4, 0), (5, 3), (1, 4)] (5, 1) h) (by decide +kernel),
    (c26_not_vertex [(0, 0), (4, 0), (5, 3), (1, 4)] (2, 1) (by decide)).mp (by decide +kernel)⟩

theorem convex_side {l : List (ℚ × ℚ)} (h : ConvexPoly l) (q : ℚ × ℚ) : ¬ BothSides l q ↔ ∀ e ∈ pairs l, 0 ≤ area e.1 e.2 q := by
  constructor
  · intro hb
    obtain ⟨r, hr⟩ := h.sum
    exact accept_left (F := exactOps) (fun _ => rfl) hr fun hc => hb ((bothSides_iff l q).mpr hc)
  · rintro hl ⟨⟨e, he, hlt⟩, -⟩
    exact absurd (hl e he) (not_le.mpr hlt)

/-- **C26** for counterclockwise convex polygons: accepted exactly if a vertex or not strictly on different sides of two edges. -/
theorem c26_convex_sides {l : List (ℚ × ℚ)} (h : ConvexPoly l) (q : ℚ × ℚ) :
    polygonPointIntersect exactOps l q = true ↔ q ∈ l ∨ ¬ BothSides l q := by
  refine ⟨c26_accepts_partial l q, fun hq => c26_accepted_partial l q ?_⟩
  rcases hq with hq | hq
  · exact (convex_side h q).mpr fun e he => h.nonneg e he q hq
  · exact hq

/-- **C26** for counterclockwise convex polygons: a point is accepted exactly if it is in the closed polygon, the convex hull of its
vertices. -/
theorem c26_convex {l : List (ℚ × ℚ)} (h : ConvexPoly l) (q : ℚ × ℚ) :
    polygonPointIntersect exactOps l q = true ↔ q ∈ convexHull ℚ {a | a ∈ l} := by
  rw [c26_convex_sides h, h.hull, ← convex_side h]
  refine ⟨fun hq => hq.elim (fun hq => (convex_side h q).mpr fun e he => h.nonneg e he q hq) id, Or.inr⟩

/-- A convex polygon. -/
theorem demo_convex : ConvexPoly [(0, 0), (4, 0), (5, 3), (1, 4)] := by
  refine ⟨by simp, ?_⟩
  have : ∀ i : Fin 4, ∀ j : Fin 4, (j : Nat) ≠ i → (j : Nat) ≠ (i + 1) % 4 →
      0 < area (([(0, 0), (4, 0), (5, 3), (1, 4)] : List (ℚ × ℚ)).get i)
        (([(0, 0), (4, 0), (5, 3), (1, 4)] : List (ℚ × ℚ)).get ⟨(i + 1) % 4, Nat.mod_lt _ (by norm_num)⟩)
        (([(0, 0), (4, 0), (5, 3), (1, 4)] : List (ℚ × ℚ)).get j) := by
    decide +kernel
  intro i j hi hj
  exact this ⟨i, hi⟩ ⟨j, hj⟩

example : ((2, 1) : ℚ × ℚ) ∈ convexHull ℚ {a : ℚ × ℚ | a ∈ [(0, 0), (4, 0), (5, 3), (1, 4)]} :=
  (c26_convex demo_convex _).mp (by decide +kernel)

example : ((5, 1) : ℚ × ℚ) ∉ convexHull ℚ {a : ℚ × ℚ | a ∈ [(0, 0), (4, 0), (5, 3), (1, 4)]} :=
  fun h => absurd ((c26_convex demo_convex _).mpr h) (by decide +kernel)

/-! ### C70 -/

/-- **C70** (partial: under `VArith`): all vertices of all stored polygons are in the image, up to the tolerance of the code. -/
theorem c70_inside_partial (A : VArith g F w h ops) (H : Hist w h ops s m) (e : vExec g F srt w h ops = some v) (S : SorterOK srt)
    {q : Pt} {l : List FP} (hl : (q, l) ∈ v.pm.flatten) : ∀ c ∈ l, -F.r64 (1 / 10000) ≤ c.1 ∧ c.1 ≤ F.r64 (w + F.r64 (1 / 10000)) ∧
      -F.r64 (1 / 10000) ≤ c.2 ∧ c.2 ≤ F.r64 (h + F.r64 (1 / 10000)) := by
  obtain ⟨f, f1, f2, _⟩ := (A.inv H e).rep
  obtain ⟨-, cs, -, c2⟩ := f2 q l ((f1.flatten q l).mp hl)
  obtain ⟨pts, -, hv⟩ := cellPoly_vertex S.perm c2
  exact fun c hc => clipVertex_bounds A.rnd A.tri.size (hv c hc)

/-- The same for the reported polygons, with IEEE arithmetic, in round numbers. -/
theorem c70_ieee_partial (k : SizeOk w h) (h1 : side w h ≤ 4096) (H : Hist w h ops s m)
    (S : SorterOK srt) (e : vExec (gridGeo ieee w h) ieee srt w h ops = some v) : ∀ l ∈ iterPolygons v, ∀ c ∈ l,
      -(11 / 100000) ≤ c.1 ∧ c.1 ≤ w + 11 / 100000 ∧ -(11 / 100000) ≤ c.2 ∧ c.2 ≤ h + 11 / 100000 := by
  intro l hl c hc
  obtain ⟨⟨q, l'⟩, hm, rfl⟩ := List.mem_map.mp (List.mem_filter.mp hl).1
  obtain ⟨a, b, c', d⟩ := c70_inside_partial (varith_ieee k h1) H e S hm c hc
  have he : ieee.r64 (1 / 10000) ≤ 1001 / 10000000 := by decide +kernel
  have hr : Rnd 53 ieee.r64 := rne_rnd (by norm_num)
  have he0 : 0 ≤ ieee.r64 (1 / 10000) := (eps_pos hr).le
  have up : ∀ n : Nat, n ≤ 8191 → ieee.r64 (n + ieee.r64 (1 / 10000)) ≤ n + 11 / 100000 := by
    intro n hn
    have h1 := hr.err (n + ieee.r64 (1 / 10000))
    have hn' : (n : ℚ) ≤ 8191 := by exact_mod_cast hn
    have h3 : |(n : ℚ) + ieee.r64 (1 / 10000)| ≤ 8192 := by
      rw [abs_of_nonneg (by positivity)]
      linarith
    have h4 : |(n : ℚ) + ieee.r64 (1 / 10000)| / 2 ^ 53 ≤ 1 / 1000000000 := by
      rw [div_le_iff₀ (by norm_num)]
      refine h3.trans ?_
      norm_num
    have := (abs_le.mp (h1.trans h4)).2
    linarith
  have uw := up w k.w2
  have uh := up h k.h2
  exact ⟨by linarith, by linarith, by linarith, by linarith⟩

example : ∃ v, vExec (gridGeo ieee 40 30) ieee goSort 40 30 demoOps = some v ∧ ∀ l ∈ iterPolygons v, ∀ c ∈ l,
    -(11 / 100000) ≤ c.1 ∧ c.1 ≤ ((40 : Nat) : ℚ) + 11 / 100000 ∧ -(11 / 100000) ≤ c.2 ∧ c.2 ≤ ((30 : Nat) : ℚ) + 11 / 100000 :=
  let ⟨v, e⟩ := demo_vexec
  ⟨v, e, c70_ieee_partial demo_size (by decide) demo_hist goSort_ok e⟩

end Verif.Props

import Verif.Props.VorCell
import Verif.Vor.Clip

/-!
# When the reported polygons tile the image (C69)
-/

namespace Verif.Props

open Verif.Tri Verif.Spec Verif.Float Verif.Vor
open Verif.Incr hiding Entry

variable {srt : Sorter} {w h : Nat} {ops : List Op} {s : Multiset Pt} {m : Nat} {v : V}

/-- The four sides of the image. -/
def imageSides (w h : Nat) : List ((ℚ × ℚ) × (ℚ × ℚ)) :=
  [((0, 0), ((w : ℚ), 0)), (((w : ℚ), 0), ((w : ℚ), (h : ℚ))), (((w : ℚ), (h : ℚ)), (0, (h : ℚ))), ((0, (h : ℚ)), (0, 0))]

/-- `r` is at least as near to `q` as to every other stored point. -/
def Nearest (s : Multiset Pt) (q : Pt) (r : ℚ × ℚ) : Prop := ∀ x ∈ s, d2 ⟨r.1, r.2⟩ q ≤ d2 ⟨r.1, r.2⟩ x

/-- No corner of the cell of `q` is within the tolerance of the code of the border of the image. -/
def CornersAway (w h : Nat) (s : Multiset Pt) (q : Pt) : Prop := ∀ o, Corner w h s q o → AwayFrom (1 / 10000) w h (o.x, o.y)

/-- No side of the image is in the cell of `q`. -/
def NoSide (w h : Nat) (s : Multiset Pt) (q : Pt) : Prop := ∀ e ∈ imageSides w h, ¬ (Nearest s q e.1 ∧ Nearest s q e.2)

/-- The points of a clipped polygon are in the image, if no corner is within the tolerance of the border. -/
theorem vertex_rect (w0 : 0 < w) (h0 : 0 < h) {pts : List (ℚ × ℚ)} (away : ∀ c ∈ pts, AwayFrom (eps exactOps) w h c) :
    Convex ℚ {r : ℚ × ℚ | InRect w h r} ∧ ∀ c, ClipVertex exactOps w h pts c → InRect w h c := by
  have ep : (0 : ℚ) < eps exactOps := eps_pos (id_rnd 53)
  have rid : ∀ x, exactOps.r64 x = x := fun _ => rfl
  have rect_convex : Convex ℚ {r : ℚ × ℚ | InRect w h r} := by
    rintro x ⟨x1, x2, x3, x4⟩ y ⟨y1, y2, y3, y4⟩ a b ha hb hab
    have eb : b = 1 - a := by linarith
    have hb' : 0 ≤ 1 - a := eb ▸ hb
    refine ⟨?_, ?_, ?_, ?_⟩ <;> simp only [Prod.fst_add, Prod.snd_add, Prod.smul_fst, Prod.smul_snd, smul_eq_mul, eb]
    · have := mul_nonneg ha x1; have := mul_nonneg hb' y1; linarith
    · have := mul_le_mul_of_nonneg_left x2 ha; have := mul_le_mul_of_nonneg_left y2 hb'; linarith
    · have := mul_nonneg ha x3; have := mul_nonneg hb' y3; linarith
    · have := mul_le_mul_of_nonneg_left x4 ha; have := mul_le_mul_of_nonneg_left y4 hb'; linarith
  -- corners that are not outside are in the image
  have inr : ∀ c ∈ pts, outside exactOps w h c = false → InRect w h c := by
    intro c hc ho
    unfold outside at ho
    simp only [rid, decide_eq_false_iff_not, not_or, not_lt, gt_iff_lt] at ho
    rcases away c hc with (h | h | h | h) | ⟨b1, b2, b3, b4⟩
    · linarith [ho.1]
    · linarith [ho.2.1]
    · linarith [ho.2.2.1]
    · linarith [ho.2.2.2]
    · exact ⟨by linarith, by linarith, by linarith, by linarith⟩
  have vertexRect : ∀ c, ClipVertex exactOps w h pts c → InRect w h c := by
    intro c hc
    have w1 : (0 : ℚ) < w := by exact_mod_cast w0
    have h1 : (0 : ℚ) < h := by exact_mod_cast h0
    cases hc with
    | corner hc ho => exact inr c hc ho
    | @cut a b _ e _ he hqi =>
      have hn : (e.2.1 - e.1.1) * (b.2 - a.2) - (e.2.2 - e.1.2) * (b.1 - a.1) ≠ 0 := by
        intro h0
        unfold segmentsIntersect at hqi
        simp only [rid] at hqi
        rw [if_pos (by linarith)] at hqi
        cases hqi
      obtain ⟨⟨t, t0, t1, rfl⟩, -⟩ := (segments_iff rid hn c).mp hqi
      have p1 := mul_nonneg t0 w1.le
      have p2 := mul_nonneg t0 h1.le
      have p3 := mul_le_mul_of_nonneg_right t1 w1.le
      have p4 := mul_le_mul_of_nonneg_right t1 h1.le
      rcases edge_cases he with rfl | rfl | rfl | rfl <;> refine ⟨?_, ?_, ?_, ?_⟩ <;> simp only <;> linarith
    | @image e he _ =>
      rcases edge_cases he with rfl | rfl | rfl | rfl <;> refine ⟨?_, ?_, ?_, ?_⟩ <;> simp only <;> linarith
  exact ⟨rect_convex, vertexRect⟩

/-- **C69**, the polygon of a point (partial: exact arithmetic; the corners of the cell are away from the border of the image and the cell contains no
side of the image): the locations of the polygon are the locations of the image that are no nearer to any other stored point. -/
theorem c69_cell_partial (k : SizeOk w h) (h4 : 4 ≤ side w h) (H : Hist w h ops s m) (S : SorterOK srt)
    (e : vExec (gridGeo exactOps w h) exactOps srt w h ops = some v) {q : Pt} {l : List (ℚ × ℚ)} (hl : (q, l) ∈ v.pm.flatten)
    (hA : CornersAway w h s q) (hS : NoSide w h s q) : ∀ r, r ∈ convexHull ℚ {a | a ∈ l} ↔ InRect w h r ∧ Nearest s q r := by
  obtain ⟨hq, cs, pts, c1, p1, p2, c2, p3⟩ := exact_cell k H S e hl
  have w0 : 0 < w := k.w1
  have h0 : 0 < h := k.h1
  have C := corners_convex exactOps_exact k hq c1 p1 p2
  have Hh := corners_hull exactOps_exact k hq c1 p1 p2
  have cell : ∀ r : ℚ × ℚ, InRect w h r → (r ∈ convexHull ℚ {a | a ∈ pts} ↔ Nearest s q r) := by
    rintro r ⟨r1, r2, r3, r4⟩
    rw [Hh]
    refine ⟨fun hr x hx => hr x (Or.inl hx), ?_⟩
    rintro hn x (hx | hx)
    · exact hn x hx
    · exact super_farther k h4 hq (r := ⟨r.1, r.2⟩) r1 r2 r3 r4 hx
  have away : ∀ c ∈ pts, AwayFrom (eps exactOps) w h c := by
    intro c hc
    exact hA _ (corner_cell exactOps_exact c1 (p1.mem_iff.mp hc))
  obtain ⟨rect_convex, vertexRect⟩ := vertex_rect w0 h0 away
  obtain ⟨pts', p3', hv⟩ := cellPoly_vertex S.perm c2
  rw [p3] at p3'
  cases p3'
  intro r
  constructor
  · intro hr
    have hir : InRect w h r := by
      have : convexHull ℚ {a | a ∈ l} ⊆ {r : ℚ × ℚ | InRect w h r} := convexHull_min (fun c hc => vertexRect c (hv c hc)) rect_convex
      exact this hr
    exact ⟨hir, c71_inside_cell k H S e hl hr⟩
  · rintro ⟨hir, hn⟩
    have hin := (cell r hir).mpr hn
    unfold cellPoly at c2
    rw [p3] at c2
    cases hout : cs.any (outside exactOps w h) with
    | false =>
      rw [hout] at c2
      have : l = pts := by simpa using c2.symm
      rw [this]; exact hin
    | true =>
      rw [hout] at c2
      have hperm : l.Perm (clipPoints exactOps w h pts) := S.perm _ _ _ (by simpa using c2)
      have : {a | a ∈ l} = {a | a ∈ clipPoints exactOps w h pts} := by
        ext a; exact hperm.mem_iff
      rw [this]
      refine clip_hull exactOps_exact w0 h0 C away ?_ hin hir
      intro e he hboth
      have rc : InRect w h e.1 ∧ InRect w h e.2 := by
        have w1 : (0 : ℚ) < w := by exact_mod_cast w0
        have h1 : (0 : ℚ) < h := by exact_mod_cast h0
        rcases edge_cases he with rfl | rfl | rfl | rfl <;> refine ⟨⟨?_, ?_, ?_, ?_⟩, ?_, ?_, ?_, ?_⟩ <;> simp only <;> linarith
      exact hS e he ⟨(cell _ rc.1).mp hboth.1, (cell _ rc.2).mp hboth.2⟩

/-- **C69** (partial: exact arithmetic; no corner of a cell is within the tolerance of the border of the image, and no cell contains a side of the image):
exactly one polygon is reported for each stored point; every location of the image is in one of the polygons, and in two of them only if it is as near to both
points. -/
theorem c69_tiling_partial (k : SizeOk w h) (h4 : 4 ≤ side w h) (H : Hist w h ops s m) (S : SorterOK srt)
    (e : vExec (gridGeo exactOps w h) exactOps srt w h ops = some v) (hA : ∀ q ∈ s, CornersAway w h s q) (hS : ∀ q ∈ s, NoSide w h s q) (hs : s ≠ 0) :
    (iterPolygons v).length = s.dedup.card ∧ (∀ r, InRect w h r ↔ ∃ l ∈ iterPolygons v, r ∈ convexHull ℚ {a | a ∈ l}) ∧
    ∀ q q' l l', (q, l) ∈ v.pm.flatten → (q', l') ∈ v.pm.flatten → ∀ r ∈ convexHull ℚ {a | a ∈ l}, r ∈ convexHull ℚ {a | a ∈ l'} →
      d2 ⟨r.1, r.2⟩ q = d2 ⟨r.1, r.2⟩ q' := by
  have one := c22_one_each_partial (varith_exact k) H e
  have pos : ∀ q l, (q, l) ∈ v.pm.flatten → 0 < l.length := by
    intro q l hl
    have hq : q ∈ s := (one.2 q).mp ⟨l, hl⟩
    obtain ⟨a1, a2, a3, a4⟩ := H.img q hq
    have : ((q.x : ℚ), (q.y : ℚ)) ∈ convexHull ℚ {a | a ∈ l} := by
      refine (c69_cell_partial k h4 H S e hl (hA q hq) (hS q hq) _).mpr ⟨⟨?_, ?_, ?_, ?_⟩, fun x _ => ?_⟩
      · simp only; exact_mod_cast a1
      · simp only; exact_mod_cast (by omega : q.x ≤ w)
      · simp only; exact_mod_cast a3
      · simp only; exact_mod_cast (by omega : q.y ≤ h)
      · simp only [d2, sub_self]
        have := sq_nonneg ((q.x : ℚ) - x.x)
        have := sq_nonneg ((q.y : ℚ) - x.y)
        linarith
    rw [List.length_pos_iff]
    rintro rfl
    simp at this
  have all : iterPolygons v = v.pm.flatten.map Prod.snd := by
    unfold iterPolygons
    refine List.filter_eq_self.mpr fun l hl => ?_
    obtain ⟨⟨q, l'⟩, hm, rfl⟩ := List.mem_map.mp hl
    simpa using pos q l' hm
  refine ⟨?_, fun r => ⟨fun hr => ?_, ?_⟩, fun q q' l l' hl hl' r hr hr' => c71_disjoint k H S e hl hl' hr hr'⟩
  · rw [all, List.length_map, ← List.length_map (f := Prod.fst), ← Multiset.coe_card]
    congr 1
    refine (Multiset.Nodup.ext (Multiset.coe_nodup.mpr one.1) (Multiset.nodup_dedup s)).mpr fun q => ?_
    rw [Multiset.mem_coe, Multiset.mem_dedup, ← one.2 q]
    constructor
    · intro hq
      obtain ⟨⟨q', l⟩, hm, rfl⟩ := List.mem_map.mp hq
      exact ⟨l, hm⟩
    · rintro ⟨l, hl⟩
      exact List.mem_map.mpr ⟨(q, l), hl, rfl⟩
  · obtain ⟨q0, hq0⟩ := Multiset.exists_mem_of_ne_zero hs
    obtain ⟨q, hq, hmin⟩ := Finset.exists_min_image s.toFinset (fun x : Pt => d2 ⟨r.1, r.2⟩ x) ⟨q0, by simpa using hq0⟩
    simp only [Multiset.mem_toFinset] at hq hmin
    obtain ⟨l, hl⟩ := (one.2 q).mpr hq
    exact ⟨l, by rw [all]; exact List.mem_map.mpr ⟨_, hl, rfl⟩, (c69_cell_partial k h4 H S e hl (hA q hq) (hS q hq) r).mpr ⟨hr, hmin⟩⟩
  · rintro ⟨l, hl, hr⟩
    rw [all] at hl
    obtain ⟨⟨q, l'⟩, hm, rfl⟩ := List.mem_map.mp hl
    have hq : q ∈ s := (one.2 q).mp ⟨l', hm⟩
    exact ((c69_cell_partial k h4 H S e hm (hA q hq) (hS q hq) r).mp hr).1

/-- A corner of the image is not in the hull of other locations of the image. -/
theorem frame_extreme {a : ℚ × ℚ} (ha : a ∈ frame w h) {l : List (ℚ × ℚ)} (hl : ∀ c ∈ l, InRect w h c ∧ c ≠ a) : a ∉ convexHull ℚ {c | c ∈ l} := by
  have key : ∀ u v : ℚ, (∀ c, InRect w h c → 0 ≤ u * (c.1 - a.1) + v * (c.2 - a.2) ∧ (u * (c.1 - a.1) + v * (c.2 - a.2) = 0 → c = a)) →
      a ∉ convexHull ℚ {c | c ∈ l} := by
    intro u v huv hin
    have sub : convexHull ℚ {c | c ∈ l} ⊆ {c : ℚ × ℚ | 0 < u * (c.1 - a.1) + v * (c.2 - a.2)} := by
      refine convexHull_min (fun c hc => ?_) ?_
      · obtain ⟨h1, h2⟩ := huv c (hl c hc).1
        exact lt_of_le_of_ne h1 fun h0 => (hl c hc).2 (h2 h0.symm)
      · intro x hx y hy p q hp hq hpq
        simp only [Set.mem_ofPred_eq, Prod.fst_add, Prod.snd_add, Prod.smul_fst, Prod.smul_snd, smul_eq_mul] at hx hy ⊢
        have eq : q = 1 - p := by linarith
        subst eq
        rcases hp.lt_or_eq with h | h
        · have p1 := mul_pos h hx
          have p2 := mul_nonneg hq hy.le
          linarith
        · subst h; linarith
    have := sub hin
    simp at this
  simp only [frame, List.mem_cons, List.not_mem_nil, or_false] at ha
  rcases ha with rfl | rfl | rfl | rfl
  · refine key 1 1 fun c hc => ⟨?_, fun h => ?_⟩
    · have := hc.1; have := hc.2.2.1; simp only; linarith
    · have := hc.1; have := hc.2.2.1; simp only at h; exact Prod.ext (by simp only; linarith) (by simp only; linarith)
  · refine key (-1) 1 fun c hc => ⟨?_, fun h => ?_⟩
    · have := hc.2.1; have := hc.2.2.1; simp only; linarith
    · have := hc.2.1; have := hc.2.2.1; simp only at h; exact Prod.ext (by simp only; linarith) (by simp only; linarith)
  · refine key (-1) (-1) fun c hc => ⟨?_, fun h => ?_⟩
    · have := hc.2.1; have := hc.2.2.2; simp only; linarith
    · have := hc.2.1; have := hc.2.2.2; simp only at h; exact Prod.ext (by simp only; linarith) (by simp only; linarith)
  · refine key 1 (-1) fun c hc => ⟨?_, fun h => ?_⟩
    · have := hc.1; have := hc.2.2.2; simp only; linarith
    · have := hc.1; have := hc.2.2.2; simp only at h; exact Prod.ext (by simp only; linarith) (by simp only; linarith)

/-- **C69** is false of every execution in which a side of the image is strictly in a cell (exact arithmetic; the corners of this cell are away from the border
of the image): if both ends of a side of the image are strictly nearer to `q` than to every other stored point, then they are in no reported polygon. -/
theorem c69_side_false (k : SizeOk w h) (h4 : 4 ≤ side w h) (H : Hist w h ops s m) (S : SorterOK srt)
    (e : vExec (gridGeo exactOps w h) exactOps srt w h ops = some v) {q : Pt} (hq : q ∈ s) (hA : CornersAway w h s q)
    {d : (ℚ × ℚ) × (ℚ × ℚ)} (hd : d ∈ imageSides w h)
    (hn : ∀ x ∈ s, x ≠ q → d2 ⟨d.1.1, d.1.2⟩ q < d2 ⟨d.1.1, d.1.2⟩ x ∧ d2 ⟨d.2.1, d.2.2⟩ q < d2 ⟨d.2.1, d.2.2⟩ x) :
    ∀ l ∈ iterPolygons v, d.1 ∉ convexHull ℚ {a | a ∈ l} ∧ d.2 ∉ convexHull ℚ {a | a ∈ l} := by
  have w0 : 0 < w := k.w1
  have h0 : 0 < h := k.h1
  have one := c22_one_each_partial (varith_exact k) H e
  have hde : d ∈ edges w h := hd
  have ends : d.1 ∈ frame w h ∧ d.2 ∈ frame w h := by
    rcases edge_cases hde with rfl | rfl | rfl | rfl <;> simp [frame]
  intro l hl
  unfold iterPolygons at hl
  obtain ⟨⟨q', l'⟩, hm, rfl⟩ := List.mem_map.mp (List.mem_filter.mp hl).1
  by_cases hqq : q' = q
  swap
  · have hq' : q' ∈ s := (one.2 q').mp ⟨l', hm⟩
    constructor
    · intro hr
      have := c71_inside_cell k H S e hm hr q hq
      linarith [(hn q' hq' hqq).1]
    · intro hr
      have := c71_inside_cell k H S e hm hr q hq
      linarith [(hn q' hq' hqq).2]
  subst hqq
  obtain ⟨hqi, cs, pts, c1, p1, p2, c2, p3⟩ := exact_cell k H S e hm
  have away : ∀ c ∈ pts, AwayFrom (eps exactOps) w h c := fun c hc => hA _ (corner_cell exactOps_exact c1 (p1.mem_iff.mp hc))
  have ep : (0 : ℚ) < eps exactOps := eps_pos (id_rnd 53)
  have rid : ∀ x, exactOps.r64 x = x := fun _ => rfl
  obtain ⟨-, vertexRect⟩ := vertex_rect w0 h0 away
  obtain ⟨pts', p3', hv⟩ := cellPoly_vertex S.perm c2
  rw [p3] at p3'
  cases p3'
  -- corners of the cell are not corners of the image
  have nc : ∀ c ∈ pts, c ∉ frame w h := by
    intro c hc hf
    have w1 : (0 : ℚ) < w := by exact_mod_cast w0
    have h1 : (0 : ℚ) < h := by exact_mod_cast h0
    have := away c hc
    unfold AwayFrom at this
    simp only [frame, List.mem_cons, List.not_mem_nil, or_false] at hf
    rcases hf with rfl | rfl | rfl | rfl <;> simp only at this <;> rcases this with (h | h | h | h) | ⟨b1, b2, b3, b4⟩ <;> linarith
  have seg : ∀ {e' : (ℚ × ℚ) × (ℚ × ℚ)} {ab : (ℚ × ℚ) × (ℚ × ℚ)} {r}, segmentsIntersect exactOps e'.1 e'.2 ab.1 ab.2 = some r →
      OnSeg e'.1 e'.2 r ∧ OnSeg ab.1 ab.2 r := by
    intro e' ab r hr
    have hn : (e'.2.1 - e'.1.1) * (ab.2.2 - ab.1.2) - (e'.2.2 - e'.1.2) * (ab.2.1 - ab.1.1) ≠ 0 := by
      intro h0
      unfold segmentsIntersect at hr
      simp only [rid] at hr
      rw [if_pos (by linarith)] at hr
      cases hr
    exact (segments_iff rid hn r).mp hr
  -- the side is not crossed
  have nohit : ∀ i, (d, i) ∈ (edges w h).zipIdx → (clipSides exactOps w h pts).2.getD i false = false := by
    intro i hi
    rw [← Bool.not_eq_true]
    intro hh
    obtain ⟨ab, hab, r, hr⟩ := (clipSides_only (F := exactOps) (w := w) (h := h) pts).2 (d, i) hi hh
    obtain ⟨o1, o2⟩ := seg (e' := d) hr
    have strict : ∀ x, Site w h s x → x ≠ q' → d2 ⟨r.1, r.2⟩ q' < d2 ⟨r.1, r.2⟩ x := by
      rintro x (hx | hx) hne
      · obtain ⟨t, t0, t1, rfl⟩ := o1
        obtain ⟨a1, a2⟩ := hn x hx hne
        have lin : ∀ y : Pt, d2 ⟨d.1.1 + t * (d.2.1 - d.1.1), d.1.2 + t * (d.2.2 - d.1.2)⟩ y =
            (1 - t) * d2 ⟨d.1.1, d.1.2⟩ y + t * d2 ⟨d.2.1, d.2.2⟩ y - t * (1 - t) * ((d.2.1 - d.1.1) ^ 2 + (d.2.2 - d.1.2) ^ 2) := by
          intro y; simp only [d2]; ring
        simp only
        rw [lin, lin]
        rcases t0.lt_or_eq with h | h
        · have p1 := mul_pos h (sub_pos.mpr a2)
          have p2 := mul_nonneg (sub_nonneg.mpr t1) (sub_pos.mpr a1).le
          linarith
        · rw [← h]; linarith
      · have hir : InRect w h r := by
          obtain ⟨t, t0, t1, rfl⟩ := o1
          have w1 : (0 : ℚ) < w := by exact_mod_cast w0
          have h1 : (0 : ℚ) < h := by exact_mod_cast h0
          have p1 := mul_nonneg t0 w1.le
          have p2 := mul_nonneg t0 h1.le
          have p3 := mul_le_mul_of_nonneg_right t1 w1.le
          have p4 := mul_le_mul_of_nonneg_right t1 h1.le
          rcases edge_cases hde with rfl | rfl | rfl | rfl <;> refine ⟨?_, ?_, ?_, ?_⟩ <;> simp only <;> linarith
        obtain ⟨r1, r2, r3, r4⟩ := hir
        exact super_farther_lt k h4 hqi (r := ⟨r.1, r.2⟩) r1 r2 r3 r4 hx
    have pos := cell_interior exactOps_exact k hqi c1 p1 p2 strict ab hab
    obtain ⟨t, -, -, rfl⟩ := o2
    have : area ab.1 ab.2 (ab.1.1 + t * (ab.2.1 - ab.1.1), ab.1.2 + t * (ab.2.2 - ab.1.2)) = 0 := by unfold area; ring
    linarith
  -- no corner of the side is a point of the polygon
  have main : ∀ a, (a = d.1 ∨ a = d.2) → ∀ c ∈ l', c ≠ a := by
    rintro a ha c hc rfl
    have hf : c ∈ frame w h := by rcases ha with rfl | rfl; exacts [ends.1, ends.2]
    unfold cellPoly at c2
    rw [p3] at c2
    cases hout : cs.any (outside exactOps w h) with
    | false =>
      rw [hout] at c2
      have : l' = pts := by simpa using c2.symm
      exact nc c (this ▸ hc) hf
    | true =>
      rw [hout] at c2
      have hperm : l'.Perm (clipPoints exactOps w h pts) := S.perm _ _ _ (by simpa using c2)
      have hc' := hperm.mem_iff.mp hc
      unfold clipPoints at hc'
      rcases (cornerFold_mem pts _ _ _ c).mp hc' with h1 | ⟨e', he', g1, g2, -, rfl⟩
      · rcases (clipSides_only (F := exactOps) (w := w) (h := h) pts).1 c h1 with ⟨h2, -⟩ | ⟨ab, -, e', he', hr, n1, n2⟩
        · exact nc c h2 hf
        · rcases frame_end w0 h0 hf he' (seg (e' := e') hr).1 with h | h
          exacts [n1 h, n2 h]
      · have w1 : (0 : ℚ) ≠ w := by have : (0 : ℚ) < w := (by exact_mod_cast w0); exact this.ne
        have h1 : (0 : ℚ) ≠ h := by have : (0 : ℚ) < h := (by exact_mod_cast h0); exact this.ne
        have n : ∀ i, (d, i) ∈ (edges w h).zipIdx → i ≠ e'.2 ∧ i ≠ (e'.2 + 1) % 4 := by
          intro i hi
          have := nohit i hi
          constructor
          · rintro rfl; rw [g1] at this; cases this
          · rintro rfl; rw [g2] at this; cases this
        simp only [edges, List.zipIdx_cons, List.zipIdx_nil, List.mem_cons, List.not_mem_nil, or_false, zero_add] at he' n
        rcases edge_cases hde with rfl | rfl | rfl | rfl
        · have := n 0 (by simp)
          rcases he' with rfl | rfl | rfl | rfl <;> simp [w1, w1.symm, h1.symm] at ha this
        · have := n 1 (by simp)
          rcases he' with rfl | rfl | rfl | rfl <;> simp [w1, h1, h1.symm] at ha this
        · have := n 2 (by simp)
          rcases he' with rfl | rfl | rfl | rfl <;> simp [w1, h1, w1.symm] at ha this
        · have := n 3 (by simp)
          rcases he' with rfl | rfl | rfl | rfl <;> simp [h1, w1.symm, h1.symm] at ha this
  exact ⟨frame_extreme ends.1 fun c hc => ⟨vertexRect c (hv c hc), main _ (Or.inl rfl) c hc⟩,
    frame_extreme ends.2 fun c hc => ⟨vertexRect c (hv c hc), main _ (Or.inr rfl) c hc⟩⟩

instance (ε : ℚ) (w h : Nat) (c : ℚ × ℚ) : Decidable (AwayFrom ε w h c) := by unfold AwayFrom; infer_instance
instance (s : Multiset Pt) (q : Pt) (r : ℚ × ℚ) : Decidable (Nearest s q r) := by unfold Nearest; infer_instance
instance (w h : Nat) (s : Multiset Pt) (q : Pt) : Decidable (NoSide w h s q) := by unfold NoSide; infer_instance

/-- The corners of the cell of a point, as computed, are away from the border of the image. -/
def awayCheck (w h : Nat) (v : V) (q : Pt) : Bool :=
  match iterVertex (gridGeo exactOps w h) v.d q with
  | some ts => (centres exactOps ts).all fun c => decide (AwayFrom (1 / 10000) w h c)
  | none => false

theorem awayCheck_ok (k : SizeOk w h) (H : Hist w h ops s m) (e : vExec (gridGeo exactOps w h) exactOps srt w h ops = some v) {q : Pt} (hq : q ∈ s)
    (hc : (vExec (gridGeo exactOps w h) exactOps srt w h ops).any (awayCheck w h · q) = true) : CornersAway w h s q := by
  have I := (varith_exact k).inv H e
  obtain ⟨ts, h1, h2⟩ := centres_corners (F := exactOps) k (id_rnd 53) (varith_exact (ops := ops) k).tri.geo H.inserted I.d hq
  rw [e] at hc
  have hc : awayCheck w h v q = true := hc
  unfold awayCheck at hc
  rw [h1] at hc
  simp only [List.all_eq_true, decide_eq_true_eq] at hc
  intro o ho
  exact hc (o.x, o.y) ((h2.2 _).mpr ⟨o, ho, (stored_exact exactOps_exact o).symm⟩)

/-- A point near each corner of the image. -/
def fourOps : List Op := [.ins ⟨9, 8⟩, .ins ⟨31, 7⟩, .ins ⟨30, 22⟩, .ins ⟨10, 23⟩]

theorem four_hist : Hist 40 30 fourOps {⟨10, 23⟩, ⟨30, 22⟩, ⟨31, 7⟩, ⟨9, 8⟩} 4 := by
  have h1 := Hist.nil (w := 40) (h := 30)
  have h2 := h1.ins ⟨9, 8⟩ ⟨by norm_num, by norm_num, by norm_num, by norm_num⟩ (by decide) (by decide)
  have h3 := h2.ins ⟨31, 7⟩ ⟨by norm_num, by norm_num, by norm_num, by norm_num⟩ (by decide) (by decide)
  have h4 := h3.ins ⟨30, 22⟩ ⟨by norm_num, by norm_num, by norm_num, by norm_num⟩ (by decide) (by decide)
  exact h4.ins ⟨10, 23⟩ ⟨by norm_num, by norm_num, by norm_num, by norm_num⟩ (by decide) (by decide)

theorem four_away : ∀ q ∈ ({⟨10, 23⟩, ⟨30, 22⟩, ⟨31, 7⟩, ⟨9, 8⟩} : Multiset Pt),
    (vExec (gridGeo exactOps 40 30) exactOps goSort 40 30 fourOps).any (awayCheck 40 30 · q) = true := by decide +kernel

/-- The four polygons tile the image. -/
example : ∃ v, vExec (gridGeo exactOps 40 30) exactOps goSort 40 30 fourOps = some v ∧ (iterPolygons v).length = 4 ∧
    ∀ r, InRect 40 30 r ↔ ∃ l ∈ iterPolygons v, r ∈ convexHull ℚ {a | a ∈ l} := by
  obtain ⟨v, e, -⟩ := c22_exact demo_size four_hist goSort_ok
  obtain ⟨t1, t2, -⟩ := c69_tiling_partial demo_size (by decide) four_hist goSort_ok e
    (fun q hq => awayCheck_ok demo_size four_hist e hq (four_away q hq)) (by decide +kernel) (by decide)
  exact ⟨v, e, t1.trans (by decide), t2⟩

/-- Two points, one above the other. -/
def twoOps : List Op := [.ins ⟨20, 6⟩, .ins ⟨21, 23⟩]

theorem two_hist : Hist 40 30 twoOps {⟨21, 23⟩, ⟨20, 6⟩} 2 := by
  have h1 := Hist.nil (w := 40) (h := 30)
  have h2 := h1.ins ⟨20, 6⟩ ⟨by norm_num, by norm_num, by norm_num, by norm_num⟩ (by decide) (by decide)
  exact h2.ins ⟨21, 23⟩ ⟨by norm_num, by norm_num, by norm_num, by norm_num⟩ (by decide) (by decide)

/-- The two upper corners of the image are in no polygon. -/
example : ∃ v, vExec (gridGeo exactOps 40 30) exactOps goSort 40 30 twoOps = some v ∧ (iterPolygons v).length = 2 ∧
    ∀ l ∈ iterPolygons v, ((0, 0) : ℚ × ℚ) ∉ convexHull ℚ {a | a ∈ l} ∧ (40, 0) ∉ convexHull ℚ {a | a ∈ l} := by
  obtain ⟨v, e, -⟩ := c22_exact demo_size two_hist goSort_ok
  have h := c69_side_false demo_size (by decide) two_hist goSort_ok e (q := ⟨20, 6⟩) (by decide)
    (awayCheck_ok demo_size two_hist e (by decide) (by decide +kernel)) (d := ((0, 0), (40, 0))) (by simp [imageSides]) (by decide +kernel)
  refine ⟨v, e, ?_, h⟩
  have : (vExec (gridGeo exactOps 40 30) exactOps goSort 40 30 twoOps).any (fun v => decide ((iterPolygons v).length = 2)) = true := by decide +kernel
  rw [e] at this
  simpa using this

/-- A corner of three cells on the upper border of the image. -/
def borderOps : List Op := [.ins ⟨12, 6⟩, .ins ⟨28, 6⟩, .ins ⟨20, 10⟩, .ins ⟨5, 25⟩, .ins ⟨35, 24⟩]

/-- **C69** is false also if no cell contains a side of the image, so that the condition on the corners of cells in `c69_tiling_partial` is needed: here three cells
meet at (20, 0), the cut of the cell of (12, 6) with the upper border is dropped as a duplicate of this corner, the border then counts as not cut, and the corner
(0, 0) of the image is not added.  With IEEE arithmetic all five polygons leave out the locations of the image with x + y < 12. -/
theorem c69_border_false : (∀ q ∈ ({⟨35, 24⟩, ⟨5, 25⟩, ⟨20, 10⟩, ⟨28, 6⟩, ⟨12, 6⟩} : Multiset Pt),
      NoSide 40 30 {⟨35, 24⟩, ⟨5, 25⟩, ⟨20, 10⟩, ⟨28, 6⟩, ⟨12, 6⟩} q) ∧
    ∃ v, vExec (gridGeo ieee 40 30) ieee goSort 40 30 borderOps = some v ∧ (iterPolygons v).length = 5 ∧
      ∀ r : ℚ × ℚ, r.1 + r.2 < 12 → ∀ l ∈ iterPolygons v, r ∉ convexHull ℚ {a | a ∈ l} := by
  refine ⟨by decide +kernel, ?_⟩
  have c : (vExec (gridGeo ieee 40 30) ieee goSort 40 30 borderOps).any (fun v => decide ((iterPolygons v).length = 5 ∧
      ∀ l ∈ iterPolygons v, ∀ c ∈ l, 12 ≤ c.1 + c.2)) = true := by decide +kernel
  cases e : vExec (gridGeo ieee 40 30) ieee goSort 40 30 borderOps with
  | none => rw [e] at c; simp at c
  | some v =>
    rw [e] at c
    simp only [Option.any_some, decide_eq_true_eq] at c
    refine ⟨v, rfl, c.1, fun r hr l hl hin => ?_⟩
    have sub : convexHull ℚ {a | a ∈ l} ⊆ {c : ℚ × ℚ | 12 ≤ c.1 + c.2} := by
      refine convexHull_min (fun a ha => c.2 l hl a ha) ?_
      intro x hx y hy p q hp hq hpq
      simp only [Set.mem_ofPred_eq, Prod.fst_add, Prod.snd_add, Prod.smul_fst, Prod.smul_snd, smul_eq_mul] at hx hy ⊢
      have p1 := mul_le_mul_of_nonneg_left hx hp
      have p2 := mul_le_mul_of_nonneg_left hy hq
      have : p * 12 + q * 12 = 12 := by rw [← add_mul, hpq, one_mul]
      linarith
    have : (12 : ℚ) ≤ r.1 + r.2 := sub hin
    linarith

end Verif.Props

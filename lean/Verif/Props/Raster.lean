import Verif.Raster.Bounds
import Verif.Props.Delaunay
import Mathlib.Order.WithBot

/-!
# Properties of the rasterizers (C27-C31, C62)

A rasterizer is a list of calls.  `DDATriangle fl z t` is the list of pixels visited, with float
operations rounded by `fl`; `z` stands for the infinite slope of a horizontal edge.  All theorems hold
for every `z`: infinite slopes never reach a coordinate.
-/

namespace Verif.Props

open Verif.Tri Verif.Spec Verif.Incr Verif.Float Verif.Raster

/-- Vertices of a triangle. -/
def vlist (t : Tri) : List Pt := [t.a, t.b, t.c]

theorem allT_of {P : Pt → Prop} {t : Tri} (h : ∀ v ∈ vlist t, P v) : AllT P t :=
  ⟨h _ (by simp [vlist]), h _ (by simp [vlist]), h _ (by simp [vlist])⟩

/-- A point with coordinates up to 2^15 in absolute value (every int16 point). -/
def Int16 (p : Pt) : Prop := -32768 ≤ p.x ∧ p.x ≤ 32768 ∧ -32768 ≤ p.y ∧ p.y ≤ 32768

theorem Int16.small {p : Pt} (h : Int16 p) : Small p := by
  obtain ⟨a, b, c, d⟩ := h
  exact ⟨abs_le.mpr ⟨by norm_num; omega, by norm_num; omega⟩, abs_le.mpr ⟨by norm_num; omega, by norm_num; omega⟩⟩

/-- A pixel of a `w` x `h` image. -/
def IsPixel (w h : Nat) (q : Int × Int) : Prop := 0 ≤ q.1 ∧ q.1 < w ∧ 0 ≤ q.2 ∧ q.2 < h

/-- A call that only reads pixels of a `w` x `h` image: the row exists and the columns are a valid range. -/
def ValidCall (w h bs : Nat) : Ev → Prop
  | .line x0 x1 y => 0 ≤ y ∧ y < h ∧ 0 ≤ x0 ∧ x0 ≤ w ∧ 0 ≤ x1 ∧ x1 ≤ w
  | .block x y => 0 ≤ y ∧ y + bs ≤ h ∧ 0 ≤ x ∧ x + bs ≤ w

/-- The line is not reported backwards, so `x1 - x0` is the number of its pixels. -/
def Forward : Ev → Prop
  | .line x0 x1 _ => x0 ≤ x1
  | .block _ _ => True

/-- Number of visits of a pixel by a list of triangles. -/
def visits (fl : ℚ → ℚ) (z : ℚ) (T : List Tri) (q : Int × Int) : Nat := (T.map fun t => (DDATriangle fl z t).count q).sum

/-- A triangle used in the examples. -/
def tri1 : Tri := ⟨⟨3, 1⟩, ⟨10, 5⟩, ⟨6, 9⟩⟩

/-! ### C27 -/

/-- **C27**: in exact arithmetic a pixel `(x, y)` is visited exactly when the half-open triangle owns the
lattice point `(x + 1, y)`, and then once. -/
theorem c27_pixels (z : ℚ) (t : Tri) (h0 : ∀ v ∈ vlist t, 0 ≤ v.x ∧ 0 ≤ v.y) (x y : Int) :
    ((x, y) ∈ DDATriangle id z t ↔ Owns t ⟨x + 1, y⟩) ∧ (DDATriangle id z t).Nodup := by
  classical
  obtain ⟨ha, hb, hc⟩ := allT_of (P := fun v => 0 ≤ v.x ∧ 0 ≤ v.y) h0
  have key : ∀ x y : Int, (DDATriangle id z t).count (x, y) = if Owns t (corner x y) then 1 else 0 := by
    intro x y
    unfold DDATriangle
    rw [count_lines monotone_id, vis_exact (Or.inr ha) (Or.inr hb) (Or.inr hc)]
  constructor
  · rw [← List.count_pos_iff, key]
    have e : corner x y = ⟨x + 1, y⟩ := by unfold corner; push_cast; rfl
    rw [← e]
    split <;> rename_i hO <;> simp [hO]
  · rw [List.nodup_iff_count_le_one]
    rintro ⟨x, y⟩
    rw [key]
    split <;> simp

/-- For pixels with nonnegative `x` the vertices may have any sign. -/
theorem c27_pixels_right (z : ℚ) (t : Tri) {x : Int} (hx : 0 ≤ x) (y : Int) :
    (x, y) ∈ DDATriangle id z t ↔ Owns t ⟨x + 1, y⟩ := by
  classical
  rw [← List.count_pos_iff]
  unfold DDATriangle
  rw [count_lines monotone_id, vis_exact (Or.inl hx) (Or.inl hx) (Or.inl hx)]
  have e : corner x y = ⟨x + 1, y⟩ := by unfold corner; push_cast; rfl
  rw [← e]
  split <;> rename_i hO <;> simp [hO]

example : (5, 5) ∈ DDATriangle id 0 tri1 ∧ (9, 5) ∈ DDATriangle id 0 tri1 ∧ (4, 5) ∈ DDATriangle id 0 tri1 ∧
    (3, 5) ∉ DDATriangle id 0 tri1 := by decide +kernel

example : Owns tri1 ⟨5 + 1, 5⟩ :=
  (c27_pixels 0 tri1 (by decide) 5 5).1.mp (by decide +kernel)

/-! ### C28 -/

/-- **C28**: for every block size and every monotone rounding, lines and blocks of `DDATriangleBlocks`
together cover exactly the pixels of `DDATriangle`, each once. -/
theorem c28_blocks {fl : ℚ → ℚ} (hm : Monotone fl) (z : ℚ) (t : Tri) {bs : Nat} (hb : 1 ≤ bs) :
    ((DDATriangleBlocks fl z t bs).flatMap (Ev.pixels bs)).Perm (DDATriangle fl z t) ∧
    ((DDATriangleBlocks fl z t bs).flatMap (Ev.pixels bs)).Nodup := by
  constructor
  · rw [List.perm_iff_count]
    rintro ⟨x, y⟩
    unfold DDATriangle
    rw [count_blocks hm z hb, count_lines hm]
  · rw [List.nodup_iff_count_le_one]
    rintro ⟨x, y⟩
    rw [count_blocks hm z hb]
    exact vis_le_one x y

/-- A triangle for which the block rasterizer uses two different kinds of calls. -/
def tri2 : Tri := ⟨⟨0, 0⟩, ⟨30, 4⟩, ⟨8, 31⟩⟩

example : ((DDATriangleBlocks (rne 53) 0 tri2 3).flatMap (Ev.pixels 3)).Perm (DDATriangle (rne 53) 0 tri2) :=
  (c28_blocks (fun a b => (rne_rnd (p := 53) (by norm_num)).mono a b) 0 tri2 (by norm_num)).1

example : Ev.block 9 13 ∈ DDATriangleBlocks (rne 53) 0 tri2 3 ∧ Ev.line 1 2 7 ∈ DDATriangleBlocks (rne 53) 0 tri2 3 ∧
    3 < (DDATriangle (rne 53) 0 tri2).length := by
  decide +kernel

/-! ### C29 -/

/-- **C29**: for vertices in `[0, w] x [0, h]` every line and block reported is inside the image. -/
theorem c29_bounds {fl : ℚ → ℚ} (R : Rnd 53 fl) (z : ℚ) {w h : Nat} (hw : w ≤ 32768) (hh : h ≤ 32768) (t : Tri)
    (ht : ∀ v ∈ vlist t, 0 ≤ v.x ∧ v.x ≤ w ∧ 0 ≤ v.y ∧ v.y ≤ h) {bs : Nat} (hb : 1 ≤ bs) :
    (∀ e ∈ DDATriangleLines fl z t, ValidCall w h bs e) ∧
    (∀ e ∈ DDATriangleBlocks fl z t bs, ValidCall w h bs e) ∧
    (∀ q ∈ DDATriangle fl z t, IsPixel w h q) := by
  have hB : AllT (InBox w h) t := allT_of fun v hv => let ⟨a, b, c, d⟩ := ht v hv; ⟨a, b, c, d⟩
  have conv : ∀ e, EvIn 0 h w bs e → ValidCall w h bs e := by
    intro e he
    cases e <;> simp only [EvIn, ValidCall] at * <;> omega
  have L : ∀ e ∈ DDATriangleLines fl z t, EvIn 0 h w bs e := fun e he => (lines_in R z bs hw hh hB e he).1
  refine ⟨fun e he => conv e (L e he), fun e he => conv e (blocks_in R z hb hw hh hB e he).1, ?_⟩
  rintro ⟨x, y⟩ hq
  obtain ⟨e, he, hp⟩ := List.mem_flatMap.mp hq
  obtain ⟨r, -, -, k⟩ := lines_form (fun a b => R.mono a b) z t e he
  have := L e he
  rcases k with ⟨-, rfl⟩ | ⟨-, rfl⟩ <;>
  · simp only [Ev.pixels, List.mem_map, mem_rows, Prod.mk.injEq] at hp
    obtain ⟨x', hx, rfl, rfl⟩ := hp
    simp only [EvIn] at this
    simp only [IsPixel]
    omega

/-- Lines of a triangle of nonzero area are never reported backwards, so the pixel counts
`n += x1 - x0` of the fitness functions (triangles.go 92 and 110) are right. -/
theorem c29_forward {fl : ℚ → ℚ} (R : Rnd 53 fl) (z : ℚ) {w h : Nat} (hw : w ≤ 32768) (hh : h ≤ 32768) (t : Tri)
    (hn : NonDegenerate t) (ht : ∀ v ∈ vlist t, 0 ≤ v.x ∧ v.x ≤ w ∧ 0 ≤ v.y ∧ v.y ≤ h) {bs : Nat} (hb : 1 ≤ bs) :
    (∀ e ∈ DDATriangleLines fl z t, Forward e) ∧ ∀ e ∈ DDATriangleBlocks fl z t bs, Forward e := by
  have hB : AllT (InBox w h) t := allT_of fun v hv => let ⟨a, b, c, d⟩ := ht v hv; ⟨a, b, c, d⟩
  have hi := (iori_nondeg t).mp hn
  have conv : ∀ e : Ev, e.Fwd → Forward e := by intro e he; cases e <;> exact he
  exact ⟨fun e he => conv e ((lines_in R z bs hw hh hB e he).2 hi), fun e he => conv e ((blocks_in R z hb hw hh hB e he).2 hi)⟩

/-- Slopes as extended rationals; not-a-number has no place among them. -/
def slopeExt : Slope → Option (WithBot (WithTop ℚ))
  | .fin q => some ((q : WithTop ℚ) : WithBot (WithTop ℚ))
  | .pinf => some ((⊤ : WithTop ℚ) : WithBot (WithTop ℚ))
  | .ninf => some ⊥
  | .nan => none

/-- Slopes are compared as extended rationals, and comparisons with not-a-number are false; a quotient by zero is infinite with the sign of the dividend. -/
theorem c29_slopes (a b : Slope) (fl : ℚ → ℚ) (n : Int) :
    (a.gt b = true ↔ ∃ x y, slopeExt a = some x ∧ slopeExt b = some y ∧ y < x) ∧
    (0 < n → slopeExt (fdiv fl n 0) = some ((⊤ : WithTop ℚ) : WithBot (WithTop ℚ))) ∧ (n < 0 → slopeExt (fdiv fl n 0) = some ⊥) ∧
    slopeExt (fdiv fl 0 0) = none := by
  refine ⟨?_, ?_, ?_, ?_⟩
  · cases a <;> cases b <;> simp [Slope.gt, slopeExt]
    exact WithBot.coe_lt_coe.mpr (WithTop.coe_lt_top _)
  · intro h; simp [fdiv, h, slopeExt]
  · intro h; simp [fdiv, h, slopeExt, not_lt.mpr h.le]
  · simp [fdiv, slopeExt]
/-- Nonzero area is needed: rounding makes the code report a line backwards for three collinear points. -/
theorem c29_degenerate_backwards :
    Ev.line 47 46 43 ∈ DDATriangleLines (rne 53) 0 ⟨⟨40, 46⟩, ⟨110, 16⟩, ⟨138, 4⟩⟩ := by decide +kernel

example : ∀ e ∈ DDATriangleBlocks (rne 53) 0 tri2 3, ValidCall 30 31 3 e :=
  (c29_bounds (rne_rnd (by norm_num)) 0 (by norm_num) (by norm_num) tri2 (by decide) (by norm_num)).2.1

example : ∀ e ∈ DDATriangleBlocks (rne 53) 0 tri2 3, Forward e :=
  (c29_forward (w := 30) (h := 31) (rne_rnd (by norm_num)) 0 (by norm_num) (by norm_num) tri2
    (by unfold NonDegenerate tri2 area2 loc; norm_num) (by decide) (by norm_num)).2

/-! ### C30 -/

theorem visits_vis {fl : ℚ → ℚ} (hm : Monotone fl) (z : ℚ) (T : List Tri) (x y : Int) :
    visits fl z T (x, y) = (T.map fun t => vis fl t x y).sum := by
  unfold visits DDATriangle
  simp only [count_lines hm]

/-- `c` and `d` are strictly on different sides of the line through `a` and `b`. -/
def Opposite (a b c d : Pt) : Prop :=
  (0 < area2 a b (loc c) ∧ area2 a b (loc d) < 0) ∨ (area2 a b (loc c) < 0 ∧ 0 < area2 a b (loc d))

theorem iori_area (a b c : Pt) : (iori a b c : ℚ) = area2 a b (loc c) := by
  unfold iori area2 loc; push_cast; ring

theorem count_vis {fl : ℚ → ℚ} (hm : Monotone fl) (z : ℚ) (t : Tri) (x y : Int) : (DDATriangle fl z t).count (x, y) = vis fl t x y :=
  count_lines hm z 0 t x y

/-- **C30**, no overlap: two triangles on opposite sides of a shared edge never both visit a pixel. -/
theorem c30_pair_disjoint {fl : ℚ → ℚ} (R : Rnd 53 fl) (z : ℚ) {a b c d : Pt} (h16 : ∀ p ∈ [a, b, c, d], Int16 p)
    (ho : Opposite a b c d) : (DDATriangle fl z ⟨a, b, c⟩).Disjoint (DDATriangle fl z ⟨a, b, d⟩) := by
  have hm : Monotone fl := fun a b => R.mono a b
  have sa := (h16 a (by simp)).small
  have sb := (h16 b (by simp)).small
  have sc := (h16 c (by simp)).small
  have sd := (h16 d (by simp)).small
  rintro ⟨x, y⟩ h1 h2
  have k1 := List.count_pos_iff.mpr h1
  have k2 := List.count_pos_iff.mpr h2
  rw [count_vis hm] at k1 k2
  have sw : ∀ p q r : Pt, iori q p r = - iori p q r := by intro p q r; unfold iori; ring
  have vsw : ∀ p : Pt, vis fl ⟨b, a, p⟩ x y = vis fl ⟨a, b, p⟩ x y := fun p => vis_perm fl (List.Perm.swap _ _ _) x y
  unfold Opposite at ho
  rw [← iori_area, ← iori_area] at ho
  rcases ho with ⟨o1, o2⟩ | ⟨o1, o2⟩
  · have o1 : 0 < iori a b c := by exact_mod_cast o1
    have o2 : iori a b d < 0 := by exact_mod_cast o2
    have := pair_disjoint (prec_rnd R) sa sb sc sd o1 (by rw [sw]; omega) x y
    rw [vsw] at this
    omega
  · have o1 : iori a b c < 0 := by exact_mod_cast o1
    have o2 : 0 < iori a b d := by exact_mod_cast o2
    have := pair_disjoint (prec_rnd R) sa sb sd sc o2 (by rw [sw]; omega) x y
    rw [vsw] at this
    omega

example : (DDATriangle (rne 53) 0 ⟨⟨0, 0⟩, ⟨30, 4⟩, ⟨8, 31⟩⟩).Disjoint (DDATriangle (rne 53) 0 ⟨⟨0, 0⟩, ⟨30, 4⟩, ⟨20, 0⟩⟩) :=
  c30_pair_disjoint (rne_rnd (by norm_num)) 0 (by unfold Int16; decide) (by unfold Opposite area2 loc; norm_num)

/-- **C30**, no gap: in the rows of the shared edge every pixel between a pixel of one triangle and a
pixel of the other is visited by one of them. -/
theorem c30_pair_no_gap {fl : ℚ → ℚ} (R : Rnd 53 fl) (z : ℚ) {a b c d : Pt} (h16 : ∀ p ∈ [a, b, c, d], Int16 p)
    (ho : Opposite a b c d) {y : Int} (hy : min a.y b.y ≤ y ∧ y < max a.y b.y) {x1 x2 x : Int}
    (e1 : (x1, y) ∈ DDATriangle fl z ⟨a, b, c⟩) (e2 : (x2, y) ∈ DDATriangle fl z ⟨a, b, d⟩)
    (hx : min x1 x2 ≤ x ∧ x ≤ max x1 x2) :
    (x, y) ∈ DDATriangle fl z ⟨a, b, c⟩ ∨ (x, y) ∈ DDATriangle fl z ⟨a, b, d⟩ := by
  have hm : Monotone fl := fun a b => R.mono a b
  have sa := (h16 a (by simp)).small
  have sb := (h16 b (by simp)).small
  have sc := (h16 c (by simp)).small
  have sd := (h16 d (by simp)).small
  have one : ∀ t x, (x, y) ∈ DDATriangle fl z t ↔ vis fl t x y = 1 := by
    intro t x
    have := vis_le_one (fl := fl) (t := t) x y
    rw [← List.count_pos_iff, count_vis hm]
    omega
  rw [one] at e1 e2 ⊢
  rw [one]
  have sw : ∀ p q r : Pt, iori q p r = - iori p q r := by intro p q r; unfold iori; ring
  have vsw : ∀ p : Pt, ∀ x, vis fl ⟨b, a, p⟩ x y = vis fl ⟨a, b, p⟩ x y := fun p x => vis_perm fl (List.Perm.swap _ _ _) x y
  unfold Opposite at ho
  rw [← iori_area, ← iori_area] at ho
  rcases ho with ⟨o1, o2⟩ | ⟨o1, o2⟩
  · have o1 : 0 < iori a b c := by exact_mod_cast o1
    have o2 : iori a b d < 0 := by exact_mod_cast o2
    have := pair_no_gap (prec_rnd R) sa sb sc sd o1 (by rw [sw]; omega) (y := y) (by omega) e1 (by rw [vsw]; exact e2) (x := x) (by omega)
    rw [vsw] at this
    omega
  · have o1 : iori a b c < 0 := by exact_mod_cast o1
    have o2 : 0 < iori a b d := by exact_mod_cast o2
    have := pair_no_gap (prec_rnd R) sa sb sd sc o2 (by rw [sw]; omega) (y := y) (by omega) e2 (by rw [vsw]; exact e1) (x := x) (by omega)
    rw [vsw] at this
    omega

example : (5, 1) ∈ DDATriangle (rne 53) 0 ⟨⟨0, 0⟩, ⟨30, 4⟩, ⟨8, 31⟩⟩ ∨ (5, 1) ∈ DDATriangle (rne 53) 0 ⟨⟨0, 0⟩, ⟨30, 4⟩, ⟨20, 0⟩⟩ :=
  c30_pair_no_gap (rne_rnd (by norm_num)) 0 (by unfold Int16; decide) (by unfold Opposite area2 loc; norm_num) (by norm_num) (x1 := 1) (x2 := 10)
    (by decide +kernel) (by decide +kernel) (by norm_num)

theorem live_small {g : Geo} {fl : ℚ → ℚ} {w h : Nat} {ops : List Op} {s : Multiset Pt} {m : Nat} {d : D}
    (A : Arith g fl w h ops) (H : Hist w h ops s m) (e : exec g fl w h ops = some d) : ∀ t ∈ live d, AllT Small t := by
  obtain ⟨I, -⟩ := A.inv H e
  intro t ht
  have key : ∀ v, IsVertex t v → Small v := by
    intro v hv
    have hk := (I.vertex_iff v).mp ⟨t, ht, hv⟩
    have hok : Ok w h v := by
      rcases hk with hk | hk
      · exact Or.inl (H.img v hk)
      · refine Or.inr ?_
        exact (isVertex_bool _ _).mpr hk
    have n := hok.near A.size
    exact Int16.small ⟨by have := n.x1; omega, by have := n.x2; omega, by have := n.y1; omega, by have := n.y2; omega⟩
  exact ⟨key _ (Or.inl rfl), key _ (Or.inr (Or.inl rfl)), key _ (Or.inr (Or.inr rfl))⟩


/-- **C30**, many triangles: if the oriented boundaries of triangles of nonzero area add up to the boundary
of one triangle (a triangulation of it), no pixel is visited twice. -/
theorem c30_mesh {fl : ℚ → ℚ} (R : Rnd 53 fl) (z : ℚ) {s : Tri} {T : List Tri} (hs : ∀ v ∈ vlist s, Int16 v)
    (hT : ∀ t ∈ T, ∀ v ∈ vlist t, Int16 v) (hn : ∀ t ∈ T, NonDegenerate t) (hns : NonDegenerate s)
    (hc : Chain (norm s) (T.map norm)) (q : Int × Int) : visits fl z T q = (DDATriangle fl z s).count q ∧ visits fl z T q ≤ 1 := by
  obtain ⟨x, y⟩ := q
  have hm : Monotone fl := fun a b => R.mono a b
  have h1 := vis_chain (prec_rnd R) (T := T) (fun t ht => allT_of fun v hv => (hT t ht v hv).small)
    (fun t ht => (nondeg_iff t).mp (hn t ht)) hc x y
  have h2 := vis_esum (prec_rnd R) (t := s) (allT_of fun v hv => (hs v hv).small) ((nondeg_iff s).mp hns) x y
  have h3 := vis_le_one (fl := fl) (t := s) x y
  rw [visits_vis hm, count_vis hm]
  omega

section
variable {g : Geo} {fl fs : ℚ → ℚ} {w h : Nat} {ops : List Op} {s : Multiset Pt} {m : Nat} {d : D}

/-- **C30**, whole triangulation (partial: under `Arith`): rasterizing all triangles visits every pixel of the
image exactly once and no pixel anywhere twice. -/
theorem c30_triangulation_partial (A : Arith g fs w h ops) (H : Hist w h ops s m) (e : exec g fs w h ops = some d)
    (R : Rnd 53 fl) (z : ℚ) (q : Int × Int) :
    visits fl z (live d) q ≤ 1 ∧ (IsPixel w h q → visits fl z (live d) q = 1) := by
  obtain ⟨I, -⟩ := A.inv H e
  obtain ⟨x, y⟩ := q
  have hm : Monotone fl := fun a b => R.mono a b
  have k := A.size
  have sup : AllT Small (newSuperTriangle w h) := by
    have key : ∀ v, (newSuperTriangle w h).hasVertex v = true → Small v := by
      intro v hv
      have n := Ok.near k (Or.inr hv : Ok w h v)
      exact Int16.small ⟨by have := n.x1; omega, by have := n.x2; omega, by have := n.y1; omega, by have := n.y2; omega⟩
    exact ⟨key _ (by simp [Tri.hasVertex]), key _ (by simp [Tri.hasVertex]), key _ (by simp [Tri.hasVertex])⟩
  have h1 := vis_chain (prec_rnd R) (live_small A H e) (fun t ht => I.inv.ccw _ (List.mem_map_of_mem ht)) I.inv.chain x y
  have h2 := vis_esum (prec_rnd R) sup (super_norm k).2 x y
  have h3 := vis_le_one (fl := fl) (t := newSuperTriangle w h) x y
  rw [visits_vis hm]
  refine ⟨by omega, ?_⟩
  rintro ⟨x1, x2, y1, y2⟩
  simp only at x1 x2 y1 y2
  have hi : Interior (newSuperTriangle w h) (corner x y) := by
    have := k.w2; have := k.h2
    apply super_contains k.w1 k.h1 (by omega) (by omega) k.two
    all_goals unfold corner; simp only
    · exact_mod_cast (by omega : (0 : ℤ) ≤ x + 1)
    · exact_mod_cast (by omega : x + 1 ≤ (w : ℤ))
    · exact_mod_cast y1
    · exact_mod_cast y2.le
  have := vis_interior R ⟨Or.inl x1, sup.1⟩ ⟨Or.inl x1, sup.2.1⟩ ⟨Or.inl x1, sup.2.2⟩ hi
  omega

/-- The triangles reported by `IterTriangles` (those rated and drawn) visit no pixel twice. -/
theorem c30_iter_partial (A : Arith g fs w h ops) (H : Hist w h ops s m) (e : exec g fs w h ops = some d)
    (R : Rnd 53 fl) (z : ℚ) (q : Int × Int) : visits fl z (iterTriangles d) q ≤ 1 := by
  refine le_trans ?_ (c30_triangulation_partial A H e R z q).1
  unfold visits
  have hsub : (iterTriangles d).Sublist (live d) := by
    unfold iterTriangles live
    exact List.monotone_filter_right _ (by intro t; simp only [Bool.and_eq_true]; tauto)
  exact (hsub.map _).sum_le_sum (fun _ _ => Nat.zero_le _)

end

example : ∃ d, exec (gridGeo ieee 40 30) (rne 53) 40 30 demoOps = some d ∧
    ∀ q, IsPixel 40 30 q → visits (rne 53) 0 (live d) q = 1 :=
  let ⟨d, e⟩ := demo_exec
  ⟨d, e, fun q hq => (c30_triangulation_partial demo_arith demo_hist e (rne_rnd (by norm_num)) 0 q).2 hq⟩

example : Opposite ⟨0, 0⟩ ⟨30, 4⟩ ⟨8, 31⟩ ⟨20, 0⟩ ∧ (∀ p ∈ [⟨0, 0⟩, ⟨30, 4⟩, ⟨8, 31⟩, ⟨20, 0⟩], Int16 p) ∧
    (10, 1) ∈ DDATriangle (rne 53) 0 ⟨⟨0, 0⟩, ⟨30, 4⟩, ⟨20, 0⟩⟩ ∧ (1, 1) ∈ DDATriangle (rne 53) 0 ⟨⟨0, 0⟩, ⟨30, 4⟩, ⟨8, 31⟩⟩ := by
  refine ⟨?_, ?_, ?_⟩
  · unfold Opposite area2 loc; norm_num
  · unfold Int16; decide
  · decide +kernel

/-! ### C31 -/

/-- **C31**: permuting the vertices does not change the pixels visited, for any monotone rounding. -/
theorem c31_vertex_order {fl : ℚ → ℚ} (hm : Monotone fl) (z : ℚ) {t t' : Tri} (hp : (vlist t').Perm (vlist t)) :
    (DDATriangle fl z t').Perm (DDATriangle fl z t) := by
  rw [List.perm_iff_count]
  rintro ⟨x, y⟩
  rw [count_vis hm, count_vis hm]
  exact vis_perm fl hp x y

/-- The same for the block rasterizer, even with different block sizes. -/
theorem c31_vertex_order_blocks {fl : ℚ → ℚ} (hm : Monotone fl) (z : ℚ) {t t' : Tri} (hp : (vlist t').Perm (vlist t))
    {bs bs' : Nat} (hb : 1 ≤ bs) (hb' : 1 ≤ bs') :
    ((DDATriangleBlocks fl z t' bs').flatMap (Ev.pixels bs')).Perm ((DDATriangleBlocks fl z t bs).flatMap (Ev.pixels bs)) :=
  ((c28_blocks hm z t' hb').1.trans (c31_vertex_order hm z hp)).trans (c28_blocks hm z t hb).1.symm

example : (DDATriangle (rne 53) 0 ⟨⟨8, 31⟩, ⟨0, 0⟩, ⟨30, 4⟩⟩).Perm (DDATriangle (rne 53) 0 tri2) :=
  c31_vertex_order (fun a b => (rne_rnd (p := 53) (by norm_num)).mono a b) 0 (by decide)

/-! ### C62 -/

/-- **C62**: with rounded arithmetic a pixel is visited when `(x + 1, y)` is inside the triangle, and only if it
is in the closed triangle. -/
theorem c62_rounded {fl : ℚ → ℚ} (R : Rnd 53 fl) (z : ℚ) {t : Tri} (hn : NonDegenerate t)
    (ht : ∀ v ∈ vlist t, Int16 v ∧ 0 ≤ v.x ∧ 0 ≤ v.y) (x y : Int) :
    (Interior t ⟨x + 1, y⟩ → (x, y) ∈ DDATriangle fl z t) ∧ ((x, y) ∈ DDATriangle fl z t → Closed t ⟨x + 1, y⟩) := by
  have hm : Monotone fl := fun a b => R.mono a b
  obtain ⟨ha, hb, hc⟩ := allT_of (P := fun v => Int16 v ∧ 0 ≤ v.x ∧ 0 ≤ v.y) ht
  have e : corner x y = ⟨x + 1, y⟩ := by unfold corner; push_cast; rfl
  rw [← e, ← List.count_pos_iff, count_vis hm]
  constructor
  · intro hi
    rw [vis_interior R ⟨Or.inr ha.2, ha.1.small⟩ ⟨Or.inr hb.2, hb.1.small⟩ ⟨Or.inr hc.2, hc.1.small⟩ hi]
    exact Nat.one_pos
  · intro hv
    exact vis_closed R hn ⟨Or.inr ha.2, ha.1.small⟩ ⟨Or.inr hb.2, hb.1.small⟩ ⟨Or.inr hc.2, hc.1.small⟩ hv.ne'

/-- On an edge rounding decides: the exact rasterizer visits this pixel, the IEEE one does not. -/
theorem c62_edge_differs : (29, 52) ∈ DDATriangle id 0 ⟨⟨105, 182⟩, ⟨0, 0⟩, ⟨0, 100⟩⟩ ∧
    (29, 52) ∉ DDATriangle (rne 53) 0 ⟨⟨105, 182⟩, ⟨0, 0⟩, ⟨0, 100⟩⟩ := by decide +kernel

example : Closed tri1 ⟨5 + 1, 5⟩ :=
  (c62_rounded (fl := rne 53) (rne_rnd (by norm_num)) 0 (by unfold NonDegenerate tri1 area2 loc; norm_num)
    (by unfold Int16; decide) 5 5).2 (by decide +kernel)

end Verif.Props

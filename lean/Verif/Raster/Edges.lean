import Verif.Raster.Count

/-!
# Both rasterizers in terms of the edges of the triangle

The x coordinate at which an edge cuts a row is computed from its endpoint of smaller y, whatever
the triangle.
-/

namespace Verif.Raster

open Verif.Incr

/-- Slope of the edge from `a` to `b` in float arithmetic. -/
def slope (fl : ℚ → ℚ) (a b : Pt) : ℚ := fl (((a.x - b.x : Int) : ℚ) / ((a.y - b.y : Int) : ℚ))

/-- x coordinate of the edge from `a` to `b` in row `y`; `a` is the end with smaller y. -/
def edgeAt (fl : ℚ → ℚ) (a b : Pt) (y : Int) : ℚ := madd fl (slope fl a b) (y - a.y) a.x

/-- The pixels between two edges in a row. -/
def between (fl : ℚ → ℚ) (a b c d : Pt) (x y : Int) : Nat := span (trunc (edgeAt fl a b y)) (trunc (edgeAt fl c d y)) x

/-- Number of visits of a pixel, for vertices sorted by decreasing y. -/
def sorted3 (fl : ℚ → ℚ) (p0 p1 p2 : Pt) (x y : Int) : Nat :=
  if p1.y = p2.y then
    if p1.y ≤ y ∧ y < p0.y then
      (if p2.x < p1.x then between fl p2 p0 p1 p0 x y else between fl p1 p0 p2 p0 x y)
    else 0
  else if p2.y ≤ y ∧ y < p1.y then
    (if slope fl p2 p1 < slope fl p2 p0 then between fl p2 p1 p2 p0 x y else between fl p2 p0 p2 p1 x y)
  else if p1.y ≤ y ∧ y < p0.y then
    (if slope fl p2 p1 < slope fl p2 p0 then between fl p1 p0 p2 p0 x y else between fl p2 p0 p1 p0 x y)
  else 0

theorem fdiv_fin (fl : ℚ → ℚ) (a b : Pt) (h : a.y - b.y ≠ 0) :
    fdiv fl (a.x - b.x) (a.y - b.y) = .fin (slope fl a b) := by
  unfold fdiv slope; rw [if_pos h]

theorem sortY_sorted (t : Tri) : (sortY t).2.2.y ≤ (sortY t).2.1.y ∧ (sortY t).2.1.y ≤ (sortY t).1.y := by
  unfold sortY
  by_cases h1 : t.a.y < t.b.y <;> by_cases h2 : t.a.y < t.c.y <;> by_cases h3 : t.b.y < t.c.y <;>
    simp [h1, h2, h3] <;> omega

theorem visits_rows (bs : Nat) (lo hi : Int) (a b : Int → Int) (x y : Int) :
    visits bs x y ((rows lo hi).map fun r => Ev.line (a r) (b r) r) =
      if lo ≤ y ∧ y < hi then span (a y) (b y) x else 0 := by
  rw [visits_lines _ _ _ _ (rows_nodup _ _)]
  simp only [mem_rows]

/-- Lines. -/
theorem lines_sorted (fl : ℚ → ℚ) (hm : Monotone fl) (z : ℚ) (bs : Nat) (t : Tri) (x y : Int) :
    visits bs x y (DDATriangleLines fl z t) = sorted3 fl (sortY t).1 (sortY t).2.1 (sortY t).2.2 x y := by
  obtain ⟨s1, s2⟩ := sortY_sorted t
  unfold DDATriangleLines
  generalize sortY t = s at *
  obtain ⟨p0, p1, p2⟩ := s
  simp only at *
  unfold sorted3
  by_cases h12 : p1.y = p2.y
  · rw [if_pos h12, if_pos h12]
    unfold bottomTriangleLines flatTriangleLines fillTriangleLines
    rw [visits_rows]
    split
    · rename_i hy
      have hne : p1.y - p0.y ≠ 0 := by omega
      have hne2 : p2.y - p0.y ≠ 0 := by omega
      unfold between edgeAt
      by_cases hx : p2.x < p1.x
      · simp only [if_pos hx]
        rw [h12]
        rw [fdiv_fin fl p2 p0 hne2]
        have := fdiv_fin fl p1 p0 hne
        rw [h12] at this
        rw [this]
        rfl
      · simp only [if_neg hx]
        rw [fdiv_fin fl p1 p0 hne]
        have := fdiv_fin fl p2 p0 hne2
        rw [← h12] at this
        rw [this, ← h12]
        rfl
    · rfl
  · rw [if_neg h12, if_neg h12]
    by_cases h01 : p0.y = p1.y
    · rw [if_pos h01]
      unfold topTriangleLines flatTriangleLines fillTriangleLines
      rw [visits_rows, h01]
      have hne0 : p2.y - p0.y ≠ 0 := by omega
      have hne : p2.y - p1.y ≠ 0 := by omega
      have f0 := fdiv_fin fl p2 p0 hne0
      have f1 := fdiv_fin fl p2 p1 hne
      rw [h01] at f0
      by_cases hy : p2.y ≤ y ∧ y < p1.y
      · rw [if_pos hy, if_pos hy]
        unfold between edgeAt
        have hneg : ((p2.y - p1.y : Int) : ℚ) < 0 := by exact_mod_cast (by omega : p2.y - p1.y < 0)
        have ord : ∀ u v : Pt, u.y = p1.y → v.y = p1.y → u.x ≤ v.x → slope fl p2 u ≤ slope fl p2 v := by
          intro u v hu hv huv
          unfold slope
          rw [hu, hv]
          apply hm
          rw [div_le_div_right_of_neg hneg]
          exact_mod_cast (by omega)
        by_cases hx : p0.x > p1.x
        · simp only [if_pos hx]
          rw [f0, f1]
          simp only [Slope.val]
          have := ord p1 p0 rfl h01 (by omega)
          split
          · rfl
          · rename_i hs
            have he : slope fl p2 p1 = slope fl p2 p0 := le_antisymm this (not_lt.mp hs)
            rw [he]
        · simp only [if_neg hx]
          rw [f0, f1]
          simp only [Slope.val]
          have := ord p0 p1 h01 rfl (by omega)
          rw [if_neg (not_lt.mpr this)]
      · rw [if_neg hy, if_neg hy, if_neg (by omega)]
    · rw [if_neg h01]
      unfold normalTriangleLines
      have f0 := fdiv_fin fl p2 p0 (by omega)
      have f1 := fdiv_fin fl p2 p1 (by omega)
      have f2 := fdiv_fin fl p1 p0 (by omega)
      simp only [f0, f1, f2]
      rw [visits_append]
      have e1 : ∀ i : Int, i - p1.y + (p1.y - p2.y) = i - p2.y := fun i => by ring
      have e2 : ∀ i : Int, i - p1.y + 0 = i - p1.y := fun i => by ring
      by_cases hs : slope fl p2 p1 < slope fl p2 p0
      · have hg : (Slope.fin (slope fl p2 p0)).gt (.fin (slope fl p2 p1)) = true := by simp [Slope.gt, hs]
        simp only [hg, if_true, if_pos hs, Slope.val, e1, e2]
        rw [visits_rows, visits_rows]
        unfold between edgeAt
        split_ifs <;> omega
      · have hg : (Slope.fin (slope fl p2 p0)).gt (.fin (slope fl p2 p1)) = false := by simp [Slope.gt, hs]
        simp only [hg, if_neg hs, Slope.val, e1, e2, Bool.false_eq_true, if_false]
        rw [visits_rows, visits_rows]
        unfold between edgeAt
        split_ifs <;> omega

/-- Left and right edge above the middle vertex. -/
def upEdges (fl : ℚ → ℚ) (p0 p1 p2 : Pt) : (Int → ℚ) × (Int → ℚ) :=
  if slope fl p2 p1 < slope fl p2 p0 then (edgeAt fl p2 p1, edgeAt fl p2 p0) else (edgeAt fl p2 p0, edgeAt fl p2 p1)

/-- Left and right edge below the middle vertex. -/
def downEdges (fl : ℚ → ℚ) (p0 p1 p2 : Pt) : (Int → ℚ) × (Int → ℚ) :=
  if p1.y = p2.y then
    (if p2.x < p1.x then (edgeAt fl p2 p0, edgeAt fl p1 p0) else (edgeAt fl p1 p0, edgeAt fl p2 p0))
  else if slope fl p2 p1 < slope fl p2 p0 then (edgeAt fl p1 p0, edgeAt fl p2 p0) else (edgeAt fl p2 p0, edgeAt fl p1 p0)

/-- Calls for the rows between `y2` and `y1`, from below. -/
def upCalls (L R : Int → ℚ) (bs : Nat) (y1 y2 : Int) : List Ev :=
  (upLoop L R bs y2 (y1 - 1 - y2).toNat (y1 - 1)).1 ++ upLines L R y2 (upLoop L R bs y2 (y1 - 1 - y2).toNat (y1 - 1)).2

/-- Calls for the rows from `y1` to `y0`. -/
def downCalls (L R : Int → ℚ) (bs : Nat) (y0 y1 : Int) : List Ev :=
  (downLoop L R bs y0 (y0 - y1).toNat y1).1 ++ downLines L R y0 (downLoop L R bs y0 (y0 - y1).toNat y1).2

theorem upCalls_nil (L R : Int → ℚ) (bs : Nat) {y1 y2 : Int} (h : y1 ≤ y2) : upCalls L R bs y1 y2 = [] := by
  unfold upCalls
  have : (y1 - 1 - y2).toNat = 0 := by omega
  rw [this]
  simp only [upLoop, upLines, rows, List.nil_append]
  have : (y1 - 1 + 1 - (y2 + 1)).toNat = 0 := by omega
  rw [this]; rfl

theorem downCalls_nil (L R : Int → ℚ) (bs : Nat) {y0 y1 : Int} (h : y0 ≤ y1) : downCalls L R bs y0 y1 = [] := by
  unfold downCalls
  have : (y0 - y1).toNat = 0 := by omega
  rw [this]
  simp only [downLoop, downLines, rows, List.nil_append, this]; rfl

/-- The calls of the block rasterizer in terms of edges. -/
theorem blocks_form (fl : ℚ → ℚ) (hm : Monotone fl) (z : ℚ) (bs : Nat) {p0 p1 p2 : Pt} (s1 : p2.y ≤ p1.y) (s2 : p1.y ≤ p0.y) :
    normalTriangleBlocks fl z p0.x p0.y p1.x p1.y p2.x p2.y bs =
      upCalls (upEdges fl p0 p1 p2).1 (upEdges fl p0 p1 p2).2 bs p1.y p2.y ++
      downCalls (downEdges fl p0 p1 p2).1 (downEdges fl p0 p1 p2).2 bs p0.y p1.y := by
  have e1 : ∀ i : Int, i - p1.y + (p1.y - p2.y) = i - p2.y := fun i => by ring
  have e2 : ∀ i : Int, i - p1.y + 0 = i - p1.y := fun i => by ring
  by_cases h02 : p0.y = p2.y
  · rw [upCalls_nil _ _ _ (by omega), downCalls_nil _ _ _ (by omega)]
    unfold normalTriangleBlocks
    simp only
    rw [← upCalls, ← downCalls, upCalls_nil _ _ _ (by omega), downCalls_nil _ _ _ (by omega)]
  have f0 := fdiv_fin fl p2 p0 (by omega)
  by_cases h12 : p1.y = p2.y
  · rw [upCalls_nil _ _ _ (by omega)]
    unfold normalTriangleBlocks
    simp only
    rw [← upCalls, ← downCalls, upCalls_nil _ _ _ (by omega)]
    have f2 := fdiv_fin fl p1 p0 (by omega)
    have d0 : p1.y - p2.y = 0 := by omega
    -- after the swaps the left edge starts at the smaller x and has the larger slope
    have fin : ∀ (m0' m1' : Slope),
        (m0' = .fin (slope fl p1 p0) ∧ m1' = .fin (slope fl p2 p0)) ∨
        (m0' = .fin (slope fl p2 p0) ∧ m1' = .fin (slope fl p1 p0)) →
        (fun i : Int => madd fl ((if m1'.gt m0' = true then (m1', m0') else (m0', m1')).1.val z) (i - p1.y)
            (if p2.x > p1.x then (p1.x, p2.x) else (p2.x, p1.x)).1) = (downEdges fl p0 p1 p2).1 ∧
        (fun i : Int => madd fl ((if m1'.gt m0' = true then (m1', m0') else (m0', m1')).2.val z) (i - p1.y)
            (if p2.x > p1.x then (p1.x, p2.x) else (p2.x, p1.x)).2) = (downEdges fl p0 p1 p2).2 := by
      intro m0' m1' hmm
      have hneg : ((p1.y - p0.y : Int) : ℚ) < 0 := by exact_mod_cast (by omega : p1.y - p0.y < 0)
      have sl2 : slope fl p2 p0 = fl (((p2.x - p0.x : Int) : ℚ) / ((p1.y - p0.y : Int) : ℚ)) := by
        unfold slope; rw [h12]
      have sl1 : slope fl p1 p0 = fl (((p1.x - p0.x : Int) : ℚ) / ((p1.y - p0.y : Int) : ℚ)) := rfl
      have ord : ∀ a b : Int, a ≤ b → fl (((b - p0.x : Int) : ℚ) / ((p1.y - p0.y : Int) : ℚ)) ≤
          fl (((a - p0.x : Int) : ℚ) / ((p1.y - p0.y : Int) : ℚ)) := by
        intro a b hab
        apply hm
        rw [div_le_div_right_of_neg hneg]
        exact_mod_cast (by omega)
      have srt : ∀ u v : ℚ, (m0' = .fin u ∧ m1' = .fin v) ∨ (m0' = .fin v ∧ m1' = .fin u) → v ≤ u →
          ((if m1'.gt m0' = true then (m1', m0') else (m0', m1')).1.val z = u ∧
          (if m1'.gt m0' = true then (m1', m0') else (m0', m1')).2.val z = v) := by
        intro u v huv hle
        rcases huv with ⟨rfl, rfl⟩ | ⟨rfl, rfl⟩
        · have : (Slope.fin v).gt (.fin u) = false := by simp [Slope.gt, hle]
          simp [this, Slope.val]
        · by_cases he : v < u
          · have : (Slope.fin u).gt (.fin v) = true := by simp [Slope.gt, he]
            simp [this, Slope.val]
          · have e : u = v := le_antisymm (not_lt.mp he) hle
            simp [Slope.val, e]
      unfold downEdges edgeAt
      rw [if_pos h12]
      by_cases hx : p2.x < p1.x
      · rw [if_pos hx, if_neg (show ¬ p2.x > p1.x by omega)]
        obtain ⟨r1, r2⟩ := srt (slope fl p2 p0) (slope fl p1 p0) (by tauto)
          (by rw [sl1, sl2]; exact ord _ _ (by omega))
        rw [r1, r2, h12]
        exact ⟨rfl, rfl⟩
      · rw [if_neg hx]
        obtain ⟨r1, r2⟩ := srt (slope fl p1 p0) (slope fl p2 p0) (by tauto)
          (by rw [sl1, sl2]; exact ord _ _ (by omega))
        rw [r1, r2, ← h12]
        by_cases hx2 : p2.x > p1.x
        · rw [if_pos hx2]; exact ⟨rfl, rfl⟩
        · rw [if_neg hx2]
          have : p1.x = p2.x := by omega
          simp only [this]
          exact ⟨trivial, trivial⟩
    simp only [if_pos h12, d0, f0, f2]
    congr 1
    cases hsw : (Slope.fin (slope fl p2 p0)).gt (fdiv fl (p2.x - p1.x) (p2.y - p1.y)) with
    | true =>
      simp only [if_true, e2]
      obtain ⟨r1, r2⟩ := fin _ _ (Or.inl ⟨rfl, rfl⟩)
      rw [r1, r2]
    | false =>
      simp only [Bool.false_eq_true, if_false, e2]
      obtain ⟨r1, r2⟩ := fin _ _ (Or.inr ⟨rfl, rfl⟩)
      rw [r1, r2]
  · have f1 := fdiv_fin fl p2 p1 (by omega)
    unfold normalTriangleBlocks
    simp only
    rw [← upCalls, ← downCalls]
    simp only [f0, f1, if_neg h12]
    unfold upEdges downEdges
    by_cases hs : slope fl p2 p1 < slope fl p2 p0
    · have hg : (Slope.fin (slope fl p2 p0)).gt (.fin (slope fl p2 p1)) = true := by simp [Slope.gt, hs]
      simp only [hg, if_true, if_pos hs, if_neg h12, Slope.val, e1, e2]
      congr 1
      by_cases h01 : p1.y = p0.y
      · rw [downCalls_nil _ _ _ (by omega), downCalls_nil _ _ _ (by omega)]
      · rw [fdiv_fin fl p1 p0 (by omega)]; rfl
    · have hg : (Slope.fin (slope fl p2 p0)).gt (.fin (slope fl p2 p1)) = false := by simp [Slope.gt, hs]
      simp only [hg, if_neg hs, if_neg h12, Slope.val, e1, e2, Bool.false_eq_true, if_false]
      congr 1
      by_cases h01 : p1.y = p0.y
      · rw [downCalls_nil _ _ _ (by omega), downCalls_nil _ _ _ (by omega)]
      · rw [fdiv_fin fl p1 p0 (by omega)]; rfl

theorem edgeAt_mono {fl : ℚ → ℚ} (hm : Monotone fl) (a b : Pt) : Mono (edgeAt fl a b) := madd_mono hm _ _ _

theorem upEdges_mono {fl : ℚ → ℚ} (hm : Monotone fl) (p0 p1 p2 : Pt) :
    Mono (upEdges fl p0 p1 p2).1 ∧ Mono (upEdges fl p0 p1 p2).2 := by
  unfold upEdges; split <;> exact ⟨edgeAt_mono hm _ _, edgeAt_mono hm _ _⟩

theorem downEdges_mono {fl : ℚ → ℚ} (hm : Monotone fl) (p0 p1 p2 : Pt) :
    Mono (downEdges fl p0 p1 p2).1 ∧ Mono (downEdges fl p0 p1 p2).2 := by
  unfold downEdges; split_ifs <;> exact ⟨edgeAt_mono hm _ _, edgeAt_mono hm _ _⟩

/-- Above the top vertex the two edges are exchanged. -/
theorem upEdges_flip {fl : ℚ → ℚ} (hm : Monotone fl) (p0 p1 p2 : Pt) (r : Int) (hr : r ≤ p2.y) :
    (upEdges fl p0 p1 p2).2 r ≤ (upEdges fl p0 p1 p2).1 r := by
  have flip : ∀ (m m' : ℚ), m ≤ m' → madd fl m' (r - p2.y) p2.x ≤ madd fl m (r - p2.y) p2.x := by
    intro m m' h
    unfold madd
    have hk : ((r - p2.y : Int) : ℚ) ≤ 0 := by exact_mod_cast (by omega : r - p2.y ≤ 0)
    have := hm (mul_le_mul_of_nonpos_right h hk)
    exact hm (by linarith)
  unfold upEdges edgeAt
  split
  · rename_i h; exact flip _ _ h.le
  · rename_i h; exact flip _ _ (not_lt.mp h)

/-- Blocks. -/
theorem blocks_sorted (fl : ℚ → ℚ) (hm : Monotone fl) (z : ℚ) (bs : Nat) (hb : 0 < bs) (t : Tri) (x y : Int) :
    visits bs x y (DDATriangleBlocks fl z t bs) = sorted3 fl (sortY t).1 (sortY t).2.1 (sortY t).2.2 x y := by
  obtain ⟨s1, s2⟩ := sortY_sorted t
  unfold DDATriangleBlocks
  generalize sortY t = s at *
  obtain ⟨p0, p1, p2⟩ := s
  simp only at *
  rw [blocks_form fl hm z bs s1 s2, visits_append]
  unfold downCalls
  rw [down_spec hb (downEdges_mono hm _ _ _).1 (downEdges_mono hm _ _ _).2]
  by_cases h12 : p1.y = p2.y
  · rw [upCalls_nil _ _ _ (by omega)]
    have v0 : visits bs x y [] = 0 := rfl
    rw [v0, Nat.zero_add]
    unfold sorted3 downEdges between
    rw [if_pos h12, if_pos h12]
    split
    · split <;> rfl
    · rfl
  · unfold upCalls
    rw [up_spec hb (upEdges_mono hm _ _ _).1 (upEdges_mono hm _ _ _).2 p2.y (upEdges_flip hm p0 p1 p2) x y _ _ (by omega)]
    have row2 : ∀ m m' : ℚ, span (trunc (madd fl m (p2.y - p2.y) p2.x)) (trunc (madd fl m' (p2.y - p2.y) p2.x)) x = 0 := by
      intro m m'
      unfold madd span
      have : ∀ m : ℚ, m * ((p2.y - p2.y : Int) : ℚ) = 0 := by intro m; simp
      rw [this, this]
      rw [if_neg (by omega)]
    unfold sorted3 upEdges downEdges
    rw [if_neg h12, if_neg h12]
    by_cases hy1 : p2.y ≤ y ∧ y < p1.y
    · rw [if_pos hy1, if_neg (show ¬ (p1.y ≤ y ∧ y < p0.y) by omega)]
      by_cases hy2 : y = p2.y
      · subst hy2
        rw [if_neg (by omega)]
        unfold between edgeAt
        split <;> rw [row2]
      · rw [if_pos (by omega)]
        unfold between
        split <;> rfl
    · rw [if_neg hy1, if_neg (by omega), Nat.zero_add]
      by_cases hy3 : p1.y ≤ y ∧ y < p0.y
      · rw [if_pos hy3, if_pos hy3]
        unfold between
        split <;> rfl
      · rw [if_neg hy3, if_neg hy3]

end Verif.Raster

import Verif.Props.Range
import Verif.Raster.Model

/-!
# C111: no float operation of the rasterizers leaves the normal range
-/

namespace Verif.Props

open Verif.Incr Verif.Raster Verif.Float

variable {fl : ℚ → ℚ} {z : ℚ}

/-- `fl` rounds like IEEE float64 for zero and normal numbers, and is arbitrary elsewhere (lines.go and blocks.go use float64). -/
def Normal64 (fl : ℚ → ℚ) : Prop := ∀ q, Mag (-1022) 1023 q → fl q = rne 53 q

/-- The size of a slope. -/
def Moderate (s : Slope) : Prop := ∀ q, s = .fin q → Mag (-63) 63 q

theorem fdiv_normal (N : Normal64 fl) {a b : Int} (ha : |a| ≤ 2 ^ 63) (hb : |b| ≤ 2 ^ 63) :
    fdiv fl a b = fdiv (rne 53) a b ∧ Moderate (fdiv (rne 53) a b) := by
  have m := (dy_int ha).mag.div (dy_int hb).mag
  unfold fdiv
  rw [N _ (m.mono (by norm_num) (by norm_num))]
  refine ⟨rfl, fun q e => ?_⟩
  split_ifs at e
  cases e
  exact (m.rne (p := 53) (by norm_num)).1.mono (by norm_num) (by norm_num)

theorem Moderate.val {s : Slope} (h : Moderate s) (hz : Mag (-63) 63 z) : Mag (-63) 63 (s.val z) := by
  cases s with
  | fin q => exact h q rfl
  | _ => exact hz

theorem madd_normal (N : Normal64 fl) {m : ℚ} (hm : Mag (-63) 63 m) {k b : Int} (hk : |k| ≤ 2 ^ 63) (hb : |b| ≤ 2 ^ 63) :
    madd fl m k b = madd (rne 53) m k b := by
  have p := hm.mul (dy_int hk).mag
  have d := (p.rne (p := 53) (by norm_num)).2
  have s := ((d.mono (a' := -115) (b' := 126) (by norm_num) (by norm_num)).add
    ((dy_int hb).mono (a' := -115) (b' := 126) (by norm_num) (by norm_num))).mag
  unfold madd
  rw [N _ (p.mono (by norm_num) (by norm_num)), N _ (s.mono (by norm_num) (by norm_num))]

theorem mem_rows_iff {lo hi i : Int} : i ∈ rows lo hi ↔ lo ≤ i ∧ i < hi := by
  unfold rows
  simp only [List.mem_map, List.mem_range]
  constructor
  · rintro ⟨j, hj, rfl⟩; omega
  · rintro ⟨h1, h2⟩; exact ⟨(i - lo).toNat, by omega, by omega⟩

/-- Coordinates up to `2 ^ 60`. -/
def Coord (x : Int) : Prop := |x| ≤ 2 ^ 60

theorem Coord.sub {x y : Int} (hx : Coord x) (hy : Coord y) : |x - y| ≤ 2 ^ 63 := by
  unfold Coord at hx hy
  rw [abs_le] at *
  omega

theorem Coord.big {x : Int} (hx : Coord x) : |x| ≤ 2 ^ 63 := by
  unfold Coord at hx
  rw [abs_le] at *
  omega

theorem Coord.row {x y i : Int} (hx : Coord x) (hy : Coord y) (h : i ∈ rows x y) : Coord i := by
  rw [mem_rows_iff] at h
  unfold Coord at *
  rw [abs_le] at *
  omega

theorem flat_normal (N : Normal64 fl) (hz : Mag (-63) 63 z) {x0 y x2 y2 i2 p : Int} (h1 : Coord x0) (h2 : Coord y) (h3 : Coord x2)
    (h4 : Coord y2) (h5 : |i2| ≤ 2 ^ 63) (h6 : Coord p) : flatTriangleLines fl z x0 y x2 y2 i2 p = flatTriangleLines (rne 53) z x0 y x2 y2 i2 p := by
  obtain ⟨a1, a2⟩ := fdiv_normal N (h3.sub h1) (h4.sub h2)
  obtain ⟨b1, b2⟩ := fdiv_normal N h5 (h4.sub h2)
  unfold flatTriangleLines fillTriangleLines
  rw [a1, b1]
  refine List.map_congr_left fun i hi => ?_
  have ci := h4.row h2 hi
  rw [madd_normal N (a2.val hz) (ci.sub h4) h3.big, madd_normal N (b2.val hz) (ci.sub h4) h6.big]

theorem normal_normal (N : Normal64 fl) (hz : Mag (-63) 63 z) {x0 y0 x1 y1 x2 y2 : Int} (h0 : Coord x0) (k0 : Coord y0) (h1 : Coord x1)
    (k1 : Coord y1) (h2 : Coord x2) (k2 : Coord y2) : normalTriangleLines fl z x0 y0 x1 y1 x2 y2 = normalTriangleLines (rne 53) z x0 y0 x1 y1 x2 y2 := by
  obtain ⟨a1, a2⟩ := fdiv_normal N (h2.sub h0) (k2.sub k0)
  obtain ⟨b1, b2⟩ := fdiv_normal N (h2.sub h1) (k2.sub k1)
  obtain ⟨c1, c2⟩ := fdiv_normal N (h1.sub h0) (k1.sub k0)
  unfold normalTriangleLines
  rw [a1, b1, c1]
  have near {i : Int} (hi : Coord i) : |i - y1 + (y1 - y2)| ≤ 2 ^ 63 := by
    rw [show i - y1 + (y1 - y2) = i - y2 by ring]; exact hi.sub k2
  have near' {i : Int} (hi : Coord i) : |i - y1 + 0| ≤ 2 ^ 63 := by rw [add_zero]; exact hi.sub k1
  cases hs : (fdiv (rne 53) (x2 - x0) (y2 - y0)).gt (fdiv (rne 53) (x2 - x1) (y2 - y1))
  all_goals
    simp only [hs, if_true, if_false, Bool.false_eq_true]
    congr 1
    · refine List.map_congr_left fun i hi => ?_
      have ci := k2.row k1 hi
      rw [madd_normal N (a2.val hz) (ci.sub k2) h2.big, madd_normal N (b2.val hz) (ci.sub k2) h2.big]
    · refine List.map_congr_left fun i hi => ?_
      have ci := k1.row k0 hi
      rw [madd_normal N (a2.val hz) (near ci) h2.big, madd_normal N (c2.val hz) (near' ci) h1.big]

/-- The corners have coordinates up to `2 ^ 60`. -/
def CoordT (t : Tri) : Prop := Coord t.a.x ∧ Coord t.a.y ∧ Coord t.b.x ∧ Coord t.b.y ∧ Coord t.c.x ∧ Coord t.c.y

theorem sortY_coord {t : Tri} (h : CoordT t) : (Coord (sortY t).1.x ∧ Coord (sortY t).1.y) ∧
    (Coord (sortY t).2.1.x ∧ Coord (sortY t).2.1.y) ∧ Coord (sortY t).2.2.x ∧ Coord (sortY t).2.2.y := by
  obtain ⟨a1, a2, b1, b2, c1, c2⟩ := h
  unfold sortY
  by_cases s : t.b.y > t.a.y
  all_goals
    simp only [s, if_true, if_false]
    split_ifs <;> exact ⟨⟨by assumption, by assumption⟩, ⟨by assumption, by assumption⟩, by assumption, by assumption⟩

/-- C111: the rasterizer by lines. -/
theorem c111_lines (N : Normal64 fl) (hz : Mag (-63) 63 z) {t : Tri} (h : CoordT t) :
    DDATriangleLines fl z t = DDATriangleLines (rne 53) z t := by
  obtain ⟨⟨a1, a2⟩, ⟨b1, b2⟩, c1, c2⟩ := sortY_coord h
  unfold DDATriangleLines
  generalize sortY t = s at *
  obtain ⟨p0, p1, p2⟩ := s
  simp only at *
  by_cases e1 : p1.y = p2.y
  · simp only [if_pos e1]
    unfold bottomTriangleLines
    by_cases e2 : p2.x < p1.x
    · simp only [if_pos e2]
      exact flat_normal N hz a1 a2 c1 b2 (b1.sub a1) b1
    · simp only [if_neg e2]
      exact flat_normal N hz a1 a2 b1 b2 (c1.sub a1) c1
  · simp only [if_neg e1]
    by_cases e3 : p0.y = p1.y
    · simp only [if_pos e3]
      unfold topTriangleLines
      by_cases e2 : p0.x > p1.x
      · simp only [if_pos e2]
        exact flat_normal N hz b1 a2 c1 c2 (c1.sub a1) c1
      · simp only [if_neg e2]
        exact flat_normal N hz a1 a2 c1 c2 (c1.sub b1) c1
    · simp only [if_neg e3]
      exact normal_normal N hz a1 a2 b1 b2 c1 c2

/-- C111: the pixels of a triangle. -/
theorem c111_pixels (N : Normal64 fl) (hz : Mag (-63) 63 z) {t : Tri} (h : CoordT t) :
    DDATriangle fl z t = DDATriangle (rne 53) z t := by
  unfold DDATriangle
  rw [c111_lines N hz h]

theorem group_congr {L R L' R' : Int → ℚ} {a b : Int} (e : ∀ r, a ≤ r → r ≤ b → L r = L' r ∧ R r = R' r) {bs : Nat} {rs : List Int}
    {i top y : Int} (hr : ∀ r ∈ rs, a ≤ r ∧ r ≤ b) (hi : a ≤ i ∧ i ≤ b) (ht : a ≤ top ∧ top ≤ b) :
    group L R bs rs i top y = group L' R' bs rs i top y := by
  obtain ⟨i1, i2⟩ := e i hi.1 hi.2
  obtain ⟨t1, t2⟩ := e top ht.1 ht.2
  unfold group
  rw [i1, i2, t1, t2]
  have l (m : Int) : rs.map (fun r => Ev.line (Raster.trunc (L r)) m r) = rs.map (fun r => Ev.line (Raster.trunc (L' r)) m r) :=
    List.map_congr_left fun r h => by rw [(e r (hr r h).1 (hr r h).2).1]
  have q (m : Int) : rs.map (fun r => Ev.line m (Raster.trunc (R r)) r) = rs.map (fun r => Ev.line m (Raster.trunc (R' r)) r) :=
    List.map_congr_left fun r h => by rw [(e r (hr r h).1 (hr r h).2).2]
  simp only [l, q]

theorem upLoop_congr {L R L' R' : Int → ℚ} {a b : Int} (e : ∀ r, a ≤ r → r ≤ b → L r = L' r ∧ R r = R' r) {bs : Nat} {y2 : Int}
    (ha : a ≤ y2 - bs) (n : Nat) : ∀ i, i < b → upLoop L R bs y2 n i = upLoop L' R' bs y2 n i ∧ (upLoop L' R' bs y2 n i).2 ≤ i := by
  induction n with
  | zero => intro i _; exact ⟨rfl, le_refl _⟩
  | succ n ih =>
    intro i hi
    unfold upLoop
    split_ifs with c
    · rw [group_congr e (by
        intro r h
        simp only [List.mem_map, List.mem_range] at h
        obtain ⟨y, hy, rfl⟩ := h
        omega) (by omega) (by omega)]
      cases group L' R' bs ((List.range bs).map fun y : Nat => i - y) i (i - bs + 1) (i - bs + 1) with
      | none => exact ⟨rfl, le_refl _⟩
      | some es =>
        obtain ⟨h1, h2⟩ := ih (i - bs) (by omega)
        simp only [Option.elim, h1, true_and]
        omega
    · exact ⟨rfl, le_refl _⟩

theorem downLoop_congr {L R L' R' : Int → ℚ} {a b : Int} (e : ∀ r, a ≤ r → r ≤ b → L r = L' r ∧ R r = R' r) {bs : Nat} {y0 : Int}
    (hb : y0 ≤ b) (n : Nat) : ∀ i, a < i → downLoop L R bs y0 n i = downLoop L' R' bs y0 n i ∧ i ≤ (downLoop L' R' bs y0 n i).2 := by
  induction n with
  | zero => intro i _; exact ⟨rfl, le_refl _⟩
  | succ n ih =>
    intro i hi
    unfold downLoop
    split_ifs with c
    · rw [group_congr e (by
        intro r h
        simp only [List.mem_map, List.mem_range] at h
        obtain ⟨y, hy, rfl⟩ := h
        omega) (by omega) (by omega)]
      cases group L' R' bs ((List.range bs).map fun y : Nat => i + y) i (i + bs - 1) i with
      | none => exact ⟨rfl, le_refl _⟩
      | some es =>
        obtain ⟨h1, h2⟩ := ih (i + bs) (by omega)
        simp only [Option.elim, h1, true_and]
        omega
    · exact ⟨rfl, le_refl _⟩

theorem up_congr {L R L' R' : Int → ℚ} {a b : Int} (e : ∀ r, a ≤ r → r ≤ b → L r = L' r ∧ R r = R' r) {bs : Nat} {y2 i : Int}
    (ha : a ≤ y2 - bs) (hi : i < b) (n : Nat) : (upLoop L R bs y2 n i).1 ++ upLines L R y2 (upLoop L R bs y2 n i).2 =
      (upLoop L' R' bs y2 n i).1 ++ upLines L' R' y2 (upLoop L' R' bs y2 n i).2 := by
  obtain ⟨h1, h2⟩ := upLoop_congr e ha n i hi
  rw [h1]
  congr 1
  unfold upLines
  refine List.map_congr_left fun r hr => ?_
  rw [List.mem_reverse, mem_rows_iff] at hr
  obtain ⟨l, q⟩ := e r (by omega) (by omega)
  rw [l, q]

theorem down_congr {L R L' R' : Int → ℚ} {a b : Int} (e : ∀ r, a ≤ r → r ≤ b → L r = L' r ∧ R r = R' r) {bs : Nat} {y0 i : Int}
    (hb : y0 ≤ b) (hi : a < i) (n : Nat) : (downLoop L R bs y0 n i).1 ++ downLines L R y0 (downLoop L R bs y0 n i).2 =
      (downLoop L' R' bs y0 n i).1 ++ downLines L' R' y0 (downLoop L' R' bs y0 n i).2 := by
  obtain ⟨h1, h2⟩ := downLoop_congr e hb n i hi
  rw [h1]
  congr 1
  unfold downLines
  refine List.map_congr_left fun r hr => ?_
  rw [mem_rows_iff] at hr
  obtain ⟨l, q⟩ := e r (by omega) (by omega)
  rw [l, q]

/-- C111: the rasterizer by blocks. -/
theorem c111_blocks (N : Normal64 fl) (hz : Mag (-63) 63 z) {t : Tri} (h : CoordT t) {bs : Nat} (hb : bs ≤ 2 ^ 60) :
    DDATriangleBlocks fl z t bs = DDATriangleBlocks (rne 53) z t bs := by
  obtain ⟨⟨h0, k0⟩, ⟨h1, k1⟩, h2, k2⟩ := sortY_coord h
  unfold DDATriangleBlocks
  generalize sortY t = s at *
  obtain ⟨p0, p1, p2⟩ := s
  simp only at *
  obtain ⟨a1, a2⟩ := fdiv_normal N (h2.sub h0) (k2.sub k0)
  obtain ⟨b1, b2⟩ := fdiv_normal N (h2.sub h1) (k2.sub k1)
  obtain ⟨c1, c2⟩ := fdiv_normal N (h1.sub h0) (k1.sub k0)
  unfold normalTriangleBlocks
  rw [a1, b1, c1]
  generalize fdiv (rne 53) (p2.x - p0.x) (p2.y - p0.y) = m0 at *
  generalize fdiv (rne 53) (p2.x - p1.x) (p2.y - p1.y) = m1 at *
  generalize fdiv (rne 53) (p1.x - p0.x) (p1.y - p0.y) = m at *
  have far {r : Int} (l1 : -2 ^ 62 ≤ r) (l2 : r ≤ 2 ^ 62) : |r - p2.y| ≤ 2 ^ 63 ∧ |r - p1.y + 0| ≤ 2 ^ 63 ∧ |r - p1.y + (p1.y - p2.y)| ≤ 2 ^ 63 := by
    unfold Coord at k1 k2
    rw [abs_le] at *
    rw [abs_le, abs_le]
    omega
  have big : -(2 : Int) ^ 62 ≤ p2.y - bs ∧ p1.y - 1 < 2 ^ 62 ∧ -(2 : Int) ^ 62 < p1.y ∧ p0.y ≤ 2 ^ 62 := by
    unfold Coord at k0 k1 k2
    rw [abs_le] at *
    omega
  have ma {s : Slope} (hs : Moderate s) {k b : Int} (hk : |k| ≤ 2 ^ 63) (hb : Coord b) := madd_normal N (hs.val hz) hk hb.big
  by_cases e1 : p1.y = p2.y
  · simp only [if_pos e1]
    cases hs : m0.gt m1 <;> cases g1 : m0.gt m <;> cases g2 : m.gt m0 <;> by_cases e2 : p2.x > p1.x
    all_goals
      simp only [g1, g2, e2, if_true, if_false, Bool.false_eq_true]
      exact congrArg₂ (· ++ ·)
        (up_congr (fun r l1 l2 => ⟨ma (by assumption) (far l1 l2).1 h2, ma (by assumption) (far l1 l2).1 h2⟩) big.1 big.2.1 _)
        (down_congr (fun r l1 l2 => ⟨ma (by assumption) (by first | exact (far l1 l2).2.1 | exact (far l1 l2).2.2) (by assumption),
          ma (by assumption) (by first | exact (far l1 l2).2.1 | exact (far l1 l2).2.2) (by assumption)⟩) big.2.2.2 big.2.2.1 _)
  · simp only [if_neg e1]
    cases hs : m0.gt m1
    all_goals
      simp only [if_true, if_false, Bool.false_eq_true]
      exact congrArg₂ (· ++ ·)
        (up_congr (fun r l1 l2 => ⟨ma (by assumption) (far l1 l2).1 h2, ma (by assumption) (far l1 l2).1 h2⟩) big.1 big.2.1 _)
        (down_congr (fun r l1 l2 => ⟨ma (by assumption) (by first | exact (far l1 l2).2.1 | exact (far l1 l2).2.2) (by assumption),
          ma (by assumption) (by first | exact (far l1 l2).2.1 | exact (far l1 l2).2.2) (by assumption)⟩) big.2.2.2 big.2.2.1 _)

-- The float64 operations of `flushing`, which differ from the rounding, on a triangle.
theorem flushing64 : Normal64 flushing.r64 := flushing_normal.r64

example : flushing.r64 (1 / 2 ^ 1023) ≠ rne 53 (1 / 2 ^ 1023) := by decide +kernel
example : DDATriangleLines flushing.r64 0 ⟨⟨0, 0⟩, ⟨5, 1⟩, ⟨2, 4⟩⟩ = DDATriangleLines (rne 53) 0 ⟨⟨0, 0⟩, ⟨5, 1⟩, ⟨2, 4⟩⟩ ∧
    DDATriangleBlocks flushing.r64 0 ⟨⟨0, 0⟩, ⟨50, 1⟩, ⟨2, 40⟩⟩ 5 = DDATriangleBlocks (rne 53) 0 ⟨⟨0, 0⟩, ⟨50, 1⟩, ⟨2, 40⟩⟩ 5 :=
  ⟨c111_lines flushing64 (Or.inl rfl) (by unfold CoordT Coord; decide), c111_blocks flushing64 (Or.inl rfl) (by unfold CoordT Coord; decide) (by norm_num)⟩
example : (DDATriangleLines flushing.r64 0 ⟨⟨0, 0⟩, ⟨5, 1⟩, ⟨2, 4⟩⟩).length = 4 := by decide +kernel

end Verif.Props

import Verif.Raster.Bounds
import Mathlib.Algebra.BigOperators.Group.Finset.Basic
import Mathlib.Algebra.BigOperators.Intervals
import Mathlib.Order.Interval.Finset.Basic
import Mathlib.Data.Int.Interval

/-!
# The pixel count the fitness functions keep
-/

namespace Verif.Raster

open Verif.Incr Verif.Float Finset

/-- What the fitness functions add to their pixel count for one call. -/
def Ev.width (bs : Nat) : Ev → Int
  | .line x0 x1 _ => x1 - x0
  | .block _ _ => bs * bs

/-- Total of a list of calls. -/
def widths (bs : Nat) (es : List Ev) : Int := (es.map (Ev.width bs)).sum

theorem widths_append (bs : Nat) (es fs : List Ev) : widths bs (es ++ fs) = widths bs es + widths bs fs := by
  unfold widths; simp

theorem sum_rows {rs : List Int} (hn : rs.Nodup) {lo hi : Int} (hr : ∀ r, r ∈ rs ↔ lo ≤ r ∧ r < hi) (f : Int → Int) :
    (rs.map f).sum = ∑ r ∈ Ico lo hi, f r := by
  have : Ico lo hi = rs.toFinset := by ext r; simp [hr]
  rw [this, List.sum_toFinset _ hn]

theorem sum_split {lo mid hi : Int} (h1 : lo ≤ mid) (h2 : mid ≤ hi) (f : Int → Int) :
    ∑ r ∈ Ico lo hi, f r = ∑ r ∈ Ico lo mid, f r + ∑ r ∈ Ico mid hi, f r := by
  rw [← Finset.sum_union (Finset.Ico_disjoint_Ico_consecutive lo mid hi), Finset.Ico_union_Ico_eq_Ico h1 h2]

theorem widths_lines (bs : Nat) (rs : List Int) (a b : Int → Int) :
    widths bs (rs.map fun r => Ev.line (a r) (b r) r) = (rs.map fun r => b r - a r).sum := by
  unfold widths; rw [List.map_map]; rfl

theorem blockRun_width (bs : Nat) (minX : ℚ) (y : Int) : ∀ (n : Nat) (x : Int),
    widths bs (blockRun bs minX y n x).1 = bs * ((blockRun bs minX y n x).2 - x) := by
  intro n
  induction n with
  | zero => intro x; simp [blockRun, widths]
  | succ n ih =>
    intro x
    simp only [blockRun]
    split
    · have := ih (x + bs)
      unfold widths at this ⊢
      simp only [List.map_cons, List.sum_cons, this, Ev.width]
      ring
    · simp [widths]

theorem group_width {L R : Int → ℚ} {bs : Nat} {rs : List Int} {i top yb : Int} {es : List Ev}
    (h : group L R bs rs i top yb = some es) (hl : rs.length = bs) :
    widths bs es = (rs.map fun r => trunc (R r) - trunc (L r)).sum := by
  unfold group at h
  simp only at h
  split at h
  · cases h
  · simp only [Option.some.injEq] at h
    generalize trunc (max (L i) (L top)) = M at *
    generalize min (R i) (R top) = m at *
    rw [← h, widths_append, widths_append, blockRun_width]
    generalize (blockRun bs m yb (⌈m⌉ - M).toNat M).2 = X
    rw [widths_lines bs rs (fun r => trunc (L r)) (fun _ => M), widths_lines bs rs (fun _ => X) (fun r => trunc (R r)), ← hl]
    clear h hl
    induction rs with
    | nil => simp
    | cons r rs ih =>
      simp only [List.map_cons, List.sum_cons, List.length_cons]
      push_cast at ih ⊢
      linarith [ih]

variable {L R : Int → ℚ} {bs : Nat}

theorem upLines_width (y2 i : Int) : widths bs (upLines L R y2 i) = ∑ r ∈ Ico (y2 + 1) (i + 1), (trunc (R r) - trunc (L r)) := by
  unfold upLines
  rw [widths_lines bs _ (fun r => trunc (L r)) (fun r => trunc (R r))]
  exact sum_rows (List.nodup_reverse.mpr (rows_nodup _ _)) (fun r => by rw [List.mem_reverse, mem_rows]) _

theorem downLines_width (y0 i : Int) : widths bs (downLines L R y0 i) = ∑ r ∈ Ico i y0, (trunc (R r) - trunc (L r)) := by
  unfold downLines
  rw [widths_lines bs _ (fun r => trunc (L r)) (fun r => trunc (R r))]
  exact sum_rows (rows_nodup _ _) (fun r => by rw [mem_rows]) _

theorem up_width (hb : 0 < bs) {y2 : Int} (hv : ∀ r, r ≤ y2 → R r ≤ L r) (n : Nat) : ∀ (i : Int), y2 ≤ i →
    widths bs ((upLoop L R bs y2 n i).1 ++ upLines L R y2 (upLoop L R bs y2 n i).2) =
      ∑ r ∈ Ico (y2 + 1) (i + 1), (trunc (R r) - trunc (L r)) := by
  induction n with
  | zero => intro i _; simp only [upLoop, List.nil_append]; exact upLines_width y2 i
  | succ n ih =>
    intro i hi
    simp only [upLoop]
    by_cases h : i > y2
    · rw [if_pos h]
      cases hg : group L R bs ((List.range bs).map fun y : Nat => i - (y : Int)) i (i - bs + 1) (i - bs + 1) with
      | none => simp only [Option.elim_none, List.nil_append]; exact upLines_width y2 i
      | some es =>
        simp only [Option.elim_some]
        obtain ⟨r1, r2⟩ := range_up i bs
        have htop : y2 < i - bs + 1 := by
          by_contra hn
          unfold group at hg
          simp only at hg
          rw [if_pos] at hg
          · cases hg
          · have h1 := hv (i - bs + 1) (by omega)
            have h2 := trunc_gt (max (L i) (L (i - bs + 1)))
            have h3 : (1 : ℚ) ≤ bs := by exact_mod_cast hb
            have h4 := le_max_right (L i) (L (i - bs + 1))
            have h5 := min_le_right (R i) (R (i - bs + 1))
            push_cast
            linarith
        rw [List.append_assoc, widths_append, ih (i - bs) (by omega), group_width hg (by simp),
          sum_rows r1 (lo := i - bs + 1) (hi := i + 1) (fun r => by rw [r2]; omega),
          sum_split (lo := y2 + 1) (mid := i - bs + 1) (hi := i + 1) (by omega) (by omega)]
        ring
    · rw [if_neg h]
      simp only [List.nil_append]
      exact upLines_width y2 i

theorem down_width {y0 : Int} (n : Nat) : ∀ (i : Int), i ≤ y0 →
    widths bs ((downLoop L R bs y0 n i).1 ++ downLines L R y0 (downLoop L R bs y0 n i).2) =
      ∑ r ∈ Ico i y0, (trunc (R r) - trunc (L r)) := by
  induction n with
  | zero => intro i _; simp only [downLoop, List.nil_append]; exact downLines_width y0 i
  | succ n ih =>
    intro i hi
    simp only [downLoop]
    by_cases h : i + bs < y0
    · rw [if_pos h]
      cases hg : group L R bs ((List.range bs).map fun y : Nat => i + (y : Int)) i (i + bs - 1) i with
      | none => simp only [Option.elim_none, List.nil_append]; exact downLines_width y0 i
      | some es =>
        simp only [Option.elim_some]
        obtain ⟨r1, r2⟩ := range_down i bs
        rw [List.append_assoc, widths_append, ih (i + bs) (by omega), group_width hg (by simp),
          sum_rows r1 (lo := i) (hi := i + bs) (fun r => by rw [r2]),
          sum_split (lo := i) (mid := i + bs) (hi := y0) (by omega) (by omega)]
    · rw [if_neg h]
      simp only [List.nil_append]
      exact downLines_width y0 i

/-- The pixel count of a triangle, row by row. -/
def rowsWidth (fl : ℚ → ℚ) (t : Tri) : Int :=
  let p := sortY t
  ∑ r ∈ Ico (p.2.2.y + 1) p.2.1.y, (trunc ((upEdges fl p.1 p.2.1 p.2.2).2 r) - trunc ((upEdges fl p.1 p.2.1 p.2.2).1 r)) +
  ∑ r ∈ Ico p.2.1.y p.1.y, (trunc ((downEdges fl p.1 p.2.1 p.2.2).2 r) - trunc ((downEdges fl p.1 p.2.1 p.2.2).1 r))

theorem blocks_width {fl : ℚ → ℚ} (hm : Monotone fl) (z : ℚ) (hb : 0 < bs) (t : Tri) :
    widths bs (DDATriangleBlocks fl z t bs) = rowsWidth fl t := by
  obtain ⟨s1, s2⟩ := sortY_sorted t
  unfold DDATriangleBlocks rowsWidth
  generalize sortY t = s at *
  obtain ⟨p0, p1, p2⟩ := s
  simp only at *
  rw [blocks_form fl hm z bs s1 s2, widths_append]
  congr 1
  · by_cases h : p1.y = p2.y
    · rw [upCalls_nil _ _ _ (by omega)]
      rw [Finset.Ico_eq_empty (by omega)]
      simp [widths]
    · have := up_width (L := (upEdges fl p0 p1 p2).1) (R := (upEdges fl p0 p1 p2).2) hb (upEdges_flip hm p0 p1 p2)
        (p1.y - 1 - p2.y).toNat (p1.y - 1) (by omega)
      rw [sub_add_cancel] at this
      exact this
  · exact down_width _ _ s2

end Verif.Raster

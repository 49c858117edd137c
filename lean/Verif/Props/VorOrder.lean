import Verif.Props.VorCell
import Verif.Vor.Around

/-!
# The order of the vertices of clipped polygons (C76)
-/

namespace Verif.Props

open Verif.Tri Verif.Spec Verif.Float Verif.Vor
open Verif.Incr hiding Entry

variable {srt : Sorter} {w h : Nat} {ops : List Op} {s : Multiset Pt} {m : Nat} {v : V}

/-- The image with the tolerance of the code. -/
def InWide (w h : Nat) (r : ℚ × ℚ) : Prop :=
  -(1 / 10000) ≤ r.1 ∧ r.1 ≤ w + 1 / 10000 ∧ -(1 / 10000) ≤ r.2 ∧ r.2 ≤ h + 1 / 10000

/-- Vertices sorted by their directions. -/
theorem sorted_around {l : List FP} (hs : (l.map (offc (avg l))).Pairwise Ord) (hn : l.Pairwise (Apart (avg l))) :
    (∀ a b c, [a, b, c].Sublist l → Cyc (avg l) a b c) ∧ (3 ≤ l.length → ∀ e ∈ pairs l, 0 < area (avg l) e.1 e.2) := by
  constructor
  · intro a b c hsub
    have h1 := List.Pairwise.sublist (hsub.map (offc (avg l))) hs
    have h2 := List.Pairwise.sublist hsub hn
    simp only [List.map_cons, List.map_nil, List.pairwise_cons, List.mem_cons, List.not_mem_nil, or_false, forall_eq_or_imp,
      forall_eq, IsEmpty.forall_iff, implies_true, List.Pairwise.nil, and_true] at h1 h2
    exact ord_cyc h1.1.1 h1.2 h1.1.2 h2.1.1 h2.2 h2.1.2
  · intro h3 e he
    have hn' : (l.map (offc (avg l))).Pairwise NotRay := by
      rw [List.pairwise_map]
      exact hn
    have key := sorted_turn hs hn' (by
      intro a ha
      obtain ⟨c, hc, rfl⟩ := List.mem_map.mp ha
      obtain ⟨d, hd, hpos⟩ := avg_left h3 hn hc
      exact ⟨_, List.mem_map_of_mem hd, hpos⟩)
    have : (offc (avg l) e.1, offc (avg l) e.2) ∈ pairs (l.map (offc (avg l))) := by
      obtain ⟨i, hi, rfl⟩ := index_pairs he
      have := pairs_index (l.map (offc (avg l))) i (by simpa using hi)
      simpa using this
    exact key _ this

/-- **C76**: without rounding, the vertices of a polygon that is clipped (since a corner of the cell is outside the image by more than
the tolerance) are listed in counterclockwise order (with y up) around their mean, once around, provided that they lie in different
directions from it. -/
theorem c76_order (k : SizeOk w h) (H : Hist w h ops s m) (S : SorterOK srt)
    (e : vExec (gridGeo exactOps w h) exactOps srt w h ops = some v) {q : Pt} {l : List (ℚ × ℚ)} (hl : (q, l) ∈ v.pm.flatten)
    (hc : ∃ o, Corner w h s q o ∧ ¬ InWide w h (o.x, o.y)) (hn : l.Pairwise (Apart (avg l))) :
    ∀ a b c, [a, b, c].Sublist l → Cyc (avg l) a b c := by
  obtain ⟨hq, cs, pts, c1, p1, p2, c2, p3⟩ := exact_cell k H S e hl
  refine (sorted_around ?_ hn).1
  have hout : cs.any (outside exactOps w h) = true := by
    rw [List.any_eq_true]
    obtain ⟨o, ho, hw⟩ := hc
    refine ⟨stored exactOps o, (c1.2 _).mpr ⟨o, ho, rfl⟩, ?_⟩
    rw [stored_exact exactOps_exact]
    unfold outside
    have r : ∀ x, exactOps.r64 x = x := fun _ => rfl
    simp only [eps, r, decide_eq_true_eq]
    unfold InWide at hw
    simp only at hw
    by_contra hno
    push Not at hno
    exact hw ⟨hno.1, hno.2.2.1, hno.2.1, hno.2.2.2⟩
  unfold cellPoly at c2
  rw [p3, hout] at c2
  exact second_sort exactOps_exact S (by simpa using c2) hn

/-- **C76**: without rounding, of every stored polygon with at least three vertices in different directions from their mean, clipped or
not, every vertex turns counterclockwise around the mean to the next one. -/
theorem c76_turn (k : SizeOk w h) (H : Hist w h ops s m) (S : SorterOK srt)
    (e : vExec (gridGeo exactOps w h) exactOps srt w h ops = some v) {q : Pt} {l : List (ℚ × ℚ)} (hl : (q, l) ∈ v.pm.flatten)
    (h3 : 3 ≤ l.length) (hn : l.Pairwise (Apart (avg l))) : ∀ e ∈ pairs l, 0 < area (avg l) e.1 e.2 := by
  obtain ⟨hq, cs, pts, c1, p1, p2, c2, p3⟩ := exact_cell k H S e hl
  unfold cellPoly at c2
  rw [p3] at c2
  cases hout : cs.any (outside exactOps w h) with
  | true =>
    rw [hout] at c2
    exact (sorted_around (second_sort exactOps_exact S (by simpa using c2) hn) hn).2 h3
  | false =>
    rw [hout] at c2
    have : l = pts := by simpa using c2.symm
    subst this
    have C := corners_left exactOps_exact k hq c1 p1 p2
    rintro ⟨a, b⟩ he
    simp only
    have nd : l.Nodup := p1.nodup_iff.mpr c1.1
    by_contra hle
    push Not at hle
    have hs := avg_sum (l := l) (fun e0 => by rw [e0] at h3; simp at h3) (b.1 - a.1) (b.2 - a.2)
    have hge : ∀ c ∈ l, 0 ≤ area a b c := by
      intro c hm
      by_cases ca : c = a
      · subst ca; unfold area; linarith
      by_cases cb : c = b
      · subst cb; unfold area; linarith
      exact (C _ he c hm ca cb).le
    obtain ⟨c, hm, ca, cb⟩ : ∃ c ∈ l, c ≠ a ∧ c ≠ b := by
      by_contra hno
      push Not at hno
      have : l ⊆ [a, b] := by
        intro c hm
        by_cases ca : c = a
        · simp [ca]
        · simp [hno c hm ca]
      have := (List.Nodup.subperm nd this).length_le
      simp at this
      omega
    have hav : area a b (avg l) = area (avg l) a b := by unfold area; ring
    have ht : ∀ c : FP, (b.1 - a.1) * (c.2 - (avg l).2) - (b.2 - a.2) * (c.1 - (avg l).1) = area a b c - area a b (avg l) := by
      intro c; unfold area; ring
    simp only [ht, hav] at hs
    have : (l.map fun _ => (0 : ℚ)).sum < (l.map fun c => area a b c - area (avg l) a b).sum :=
      List.sum_lt_sum _ _ (fun d hd => by linarith [hge d hd]) ⟨c, hm, by linarith [C _ he c hm ca cb]⟩
    simp only [List.map_const', List.sum_replicate, smul_zero] at this
    linarith

/-- A corner of the cell of a point that is outside the image. -/
theorem demo_corner : Corner 40 30 demoBag ⟨10, 10⟩ ⟨20, -195 / 2⟩ := by
  refine ⟨⟨⟨30, 10⟩, ⟨-60, -25⟩, Or.inl (by decide), Or.inr (Or.inl rfl), by decide, by decide, by decide, ?_, ?_⟩, ?_⟩
  · norm_num [d2]
  · norm_num [d2]
  · rintro x (hx | hx | hx | hx)
    · have : x = ⟨10, 10⟩ ∨ x = ⟨30, 10⟩ ∨ x = ⟨20, 25⟩ ∨ x = ⟨10, 10⟩ := by simpa [demoBag] using hx
      rcases this with rfl | rfl | rfl | rfl <;> norm_num [d2]
    · have : x = ⟨-60, -25⟩ := hx
      subst this; norm_num [d2]
    · have : x = ⟨20, 95⟩ := hx
      subst this; norm_num [d2]
    · have : x = ⟨100, -25⟩ := hx
      subst this; norm_num [d2]

/-- Its polygon, the order of three of its vertices, and its turns. -/
example : ∃ v l, vExec (gridGeo exactOps 40 30) exactOps goSort 40 30 demoOps = some v ∧ (⟨10, 10⟩, l) ∈ v.pm.flatten ∧
    Cyc (avg l) (0, 55 / 2) (0, 0) (20, 85 / 6) ∧ ∀ e ∈ pairs l, 0 < area (avg l) e.1 e.2 := by
  have key : ((vExec (gridGeo exactOps 40 30) exactOps goSort 40 30 demoOps).map fun v =>
      decide ((⟨10, 10⟩, [(0, 55 / 2), (0, 0), (20, 0), (20, 85 / 6)]) ∈ v.pm.flatten)) = some true := by
    decide +kernel
  cases hv : vExec (gridGeo exactOps 40 30) exactOps goSort 40 30 demoOps with
  | none => rw [hv] at key; cases key
  | some v =>
    rw [hv] at key
    have hl : (⟨10, 10⟩, [(0, 55 / 2), (0, 0), (20, 0), (20, 85 / 6)]) ∈ v.pm.flatten := by simpa using key
    have hn : ([(0, 55 / 2), (0, 0), (20, 0), (20, 85 / 6)] : List (ℚ × ℚ)).Pairwise
        (Apart (avg [(0, 55 / 2), (0, 0), (20, 0), (20, 85 / 6)])) := by
      unfold Apart area avg
      decide +kernel
    exact ⟨v, _, rfl, hl, c76_order demo_size demo_hist goSort_ok hv hl
      ⟨_, demo_corner, fun hw => absurd hw.2.2.1 (by norm_num)⟩ hn _ _ _ (by decide +kernel),
      c76_turn demo_size demo_hist goSort_ok hv hl (by decide) hn⟩

end Verif.Props

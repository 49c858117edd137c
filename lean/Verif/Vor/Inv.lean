import Verif.Vor.Cells
import Verif.Vor.Maps
import Verif.Vor.Sort
import Verif.Incr.Remove

/-!
# The invariant of the incremental Voronoi diagram
-/

namespace Verif.Vor

open Verif.Incr hiding trunc step run Entry
open Verif.Tri Verif.Spec Verif.Float

/-- `l` is the polygon computed from the corners of the cell of `q`, listed in some order. -/
def CellIs (F : FloatOps) (srt : Sorter) (w h : Nat) (s : Multiset Pt) (q : Pt) (l : List FP) : Prop :=
  ∃ cs, ListsCorners F w h s q cs ∧ cellPoly F srt w h q cs (cs.any (outside F w h)) = some l

/-- The polygon of `q` can be computed, in whatever order the corners are found. -/
def Computable (F : FloatOps) (srt : Sorter) (w h : Nat) (s : Multiset Pt) (q : Pt) : Prop :=
  ∀ cs, ListsCorners F w h s q cs → ∃ l, cellPoly F srt w h q cs (cs.any (outside F w h)) = some l

/-- The diagram of a `w` x `h` image holding the points `s`. -/
structure VInv (g : Geo) (F : FloatOps) (srt : Sorter) (w h : Nat) (v : V) (s : Multiset Pt) : Prop where
  d : DInv g w h v.d s
  ew : v.w = w
  eh : v.h = h
  len : v.pm.length = 6
  rep : ∃ f, PRep v.pm f ∧ (∀ q l, f q = some l → q ∈ s ∧ CellIs F srt w h s q l) ∧ ∀ q ∈ s, ∃ l, f q = some l

variable {g : Geo} {F : FloatOps} {srt : Sorter} {w h : Nat}

theorem lists_congr {s s' : Multiset Pt} {q : Pt} (hc : ∀ o, Corner w h s q o ↔ Corner w h s' q o) {cs : List FP}
    (hl : ListsCorners F w h s q cs) : ListsCorners F w h s' q cs :=
  ⟨hl.1, fun c => (hl.2 c).trans (by simp only [hc])⟩

theorem cellIs_congr {s s' : Multiset Pt} {q : Pt} (hc : ∀ o, Corner w h s q o ↔ Corner w h s' q o) {l : List FP}
    (hl : CellIs F srt w h s q l) : CellIs F srt w h s' q l := by
  obtain ⟨cs, h1, h2⟩ := hl
  exact ⟨cs, lists_congr hc h1, h2⟩

theorem processAll_spec (d : D) : ∀ (us : List Pt) (v : V) (f), v.d = d → v.w = w → v.h = h → PRep v.pm f → us.Nodup →
    (∀ u ∈ us, f u = none) → (∀ u ∈ us, 0 ≤ (53 + u.x) * 53 + u.y) → (∀ u ∈ us, ∃ l, cellOf g F srt w h d u = some l) →
    ∃ v', us.foldlM (processPoint g F srt) v = some v' ∧ v'.d = d ∧ v'.w = w ∧ v'.h = h ∧ v'.pm.length = v.pm.length ∧
      PRep v'.pm (fun q => if q ∈ us then cellOf g F srt w h d q else f q) := by
  intro us
  induction us with
  | nil => intro v f e1 e2 e3 h _ _ _ _; exact ⟨v, rfl, e1, e2, e3, rfl, by simpa using h⟩
  | cons u us ih =>
    intro v f e1 e2 e3 h hn h0 hh hc
    rw [List.nodup_cons] at hn
    obtain ⟨l, hl⟩ := hc u (by simp)
    obtain ⟨m, a1, a2, a3⟩ := addPolygon_spec h (hh u (by simp)) (h0 u (by simp)) l
    obtain ⟨v', b1, b2, b3, b4, b5, b6⟩ := ih { v with pm := m } _ e1 e2 e3 a3 hn.2 (by
      intro x hx
      have : x ≠ u := by rintro rfl; exact hn.1 hx
      rw [Function.update_of_ne this]; exact h0 x (by simp [hx])) (fun x hx => hh x (by simp [hx])) (fun x hx => hc x (by simp [hx]))
    refine ⟨v', ?_, b2, b3, b4, by simpa using b5.trans a2, ?_⟩
    · rw [List.foldlM_cons]
      have : processPoint g F srt v u = some { v with pm := m } := by
        unfold processPoint
        rw [e1, e2, e3, hl]
        simp [a1]
      rw [this]
      exact b1
    · convert b6 using 2 with q
      by_cases hq : q = u
      · subst hq; simp [hn.1, hl]
      · simp [hq, Function.update_of_ne hq]

theorem processAll_none (d : D) : ∀ (us : List Pt) (v : V), v.d = d → v.w = w → v.h = h →
    (∃ u ∈ us, cellOf g F srt w h d u = none) → us.foldlM (processPoint g F srt) v = none := by
  intro us
  induction us with
  | nil => rintro v - - - ⟨u, hu, -⟩; cases hu
  | cons u us ih =>
    rintro v e1 e2 e3 ⟨x, hx, hn⟩
    rw [List.foldlM_cons]
    have hpp : processPoint g F srt v u = (cellOf g F srt w h d u).bind fun poly => (addPolygon v.pm u poly).bind fun m => some { v with pm := m } := by
      unfold processPoint
      rw [e1, e2, e3]
      rfl
    rw [hpp]
    rcases List.mem_cons.mp hx with rfl | hx
    · rw [hn]; rfl
    · cases hc : cellOf g F srt w h d u with
      | none => rfl
      | some poly =>
        cases ha : addPolygon v.pm u poly with
        | none => simp [ha]
        | some m =>
          simp only [Option.bind_some, ha, Option.bind_eq_bind]
          exact ih { v with pm := m } e1 e2 e3 ⟨x, hx, hn⟩

theorem new_inv (hd : ∃ d, newDelaunay g w h = some d ∧ DInv g w h d 0) : ∃ v, newVoronoi g w h = some v ∧ VInv g F srt w h v 0 := by
  obtain ⟨d, h1, h2⟩ := hd
  refine ⟨⟨d, List.replicate 6 [], w, h⟩, by simp [newVoronoi, h1], h2, rfl, rfl, by simp, fun _ => none, PRep.new (by norm_num), by simp, by simp⟩

variable {Q : Pt → Prop} (k : SizeOk w h) (R : Rnd 53 F.r64) (G : GeoOK g w h Q)

include k R G

/-- **Insert** keeps the invariant, or it panics because some polygon cannot be computed. -/
theorem vInsert_spec {v : V} {s : Multiset Pt} (I : VInv g F srt w h v s) {p : Pt} (hp : InImg w h p) (hQ : ∀ x ∈ p ::ₘ s, Q x)
    (hc : s.count p < 65535) (hd : (p ::ₘ s).dedup.card ≤ 32767) :
    (∃ v', vInsert g F srt v p = some v' ∧ VInv g F srt w h v' (p ::ₘ s)) ∨
      (vInsert g F srt v p = none ∧ ∃ q ∈ p ::ₘ s, ¬ Computable F srt w h (p ::ₘ s) q) := by
  obtain ⟨d', e1, I', _, hr⟩ := insert_full k G I.d hp (hQ p (Multiset.mem_cons_self _ _)) hc hd
  have hh := hp.hashable k
  have hcop : pmCopies v.d.pm p = some (s.count p) := pmCopies_spec I.d.pm ⟨⟨hh.1, hh.2.1, hh.2.2.1, hh.2.2.2.1⟩, hh.2.2.2.2⟩
  obtain ⟨f, f1, f2, f3⟩ := I.rep
  have hmem : ∀ x, x ∈ p ::ₘ s ↔ x = p ∨ x ∈ s := fun x => Multiset.mem_cons
  unfold vInsert
  rw [hcop]
  simp only [Option.bind_eq_bind, Option.bind_some]
  by_cases hps : p ∈ s
  · rw [if_pos (Multiset.count_pos.mpr hps), e1]
    have hs : ∀ x, x ∈ s ↔ x ∈ p ::ₘ s := by intro x; rw [hmem]; exact ⟨Or.inr, fun h => h.elim (fun e => e ▸ hps) id⟩
    refine Or.inl ⟨{ v with d := d' }, rfl, I', I.ew, I.eh, I.len, f, f1, ?_, ?_⟩
    · intro q l hl
      obtain ⟨a, b⟩ := f2 q l hl
      exact ⟨(hs q).mp a, cellIs_congr (corner_congr hs q) b⟩
    · intro q hq; exact f3 q ((hs q).mpr hq)
  · rw [if_neg (by rw [Multiset.count_eq_zero_of_notMem hps]; simp)]
    obtain ⟨ts, t1, t2⟩ := iterContain_spec I.d k G hp (hQ p (Multiset.mem_cons_self _ _))
    obtain ⟨u1, u2⟩ := updates_spec v.d.sup ts
    set us := ts.foldl (addTriUpdate v.d.sup) [] with hus
    have hsup : ∀ q, v.d.sup.hasVertex q = false ↔ ¬ IsVertex (newSuperTriangle w h) q := by
      intro q; rw [I.d.sup, ← isVertex_bool]; simp
    have us_mem : ∀ q, q ∈ us ↔ q ∈ s ∧ ∃ t ∈ live v.d, inTest p t = true ∧ t.hasVertex q = true := by
      intro q
      rw [u2, hsup]
      constructor
      · rintro ⟨⟨t, ht, hv⟩, hn⟩
        obtain ⟨a, b⟩ := (t2 t).mp ht
        exact ⟨((I.d.vertex_iff q).mp ⟨t, a, (isVertex_bool t q).mp hv⟩).resolve_right hn, t, a, b, hv⟩
      · rintro ⟨hq, t, a, b, hv⟩
        exact ⟨⟨t, (t2 t).mpr ⟨a, b⟩, hv⟩, DInv.inImg_not_super k (I.d.img q hq)⟩
    have hpu : p ∉ us := fun hm => hps ((us_mem p).mp hm).1
    have hadd : addUpdate v.d.sup us p = us ++ [p] := by
      unfold addUpdate
      rw [if_neg (by rw [Bool.not_eq_true, hsup]; exact DInv.inImg_not_super k hp), if_neg hpu]
    obtain ⟨m, m1, m2, m3⟩ := removeAll_spec us v.pm f f1 u1 (fun u hu => f3 u ((us_mem u).mp hu).1)
    have hin : ∀ q ∈ us ++ [p], q ∈ p ::ₘ s := by
      intro q hq
      rw [List.mem_append, List.mem_singleton] at hq
      rw [hmem]
      exact hq.elim (fun h => Or.inr ((us_mem q).mp h).1) Or.inl
    rw [t1, e1]
    simp only [Option.bind_some]
    rw [m1]
    simp only [Option.bind_some]
    rw [hadd]
    by_cases hall : ∃ u ∈ us ++ [p], cellOf g F srt w h d' u = none
    · right
      refine ⟨processAll_none d' (us ++ [p]) { v with d := d', pm := m } rfl I.ew I.eh hall, ?_⟩
      obtain ⟨u, hu, hn⟩ := hall
      refine ⟨u, hin u hu, fun hc => ?_⟩
      obtain ⟨cs, c1, c2⟩ := cellOf_spec srt k R G hQ I' (hin u hu)
      obtain ⟨l, hl⟩ := hc cs c1
      rw [← c2, hn] at hl
      cases hl
    left
    have hall : ∀ u ∈ us ++ [p], ∃ l, cellOf g F srt w h d' u = some l := by
      intro u hu
      cases hc : cellOf g F srt w h d' u with
      | none => exact (hall ⟨u, hu, hc⟩).elim
      | some l => exact ⟨l, rfl⟩
    obtain ⟨v', b1, b2, b3, b4, b5, b6⟩ := processAll_spec (g := g) (F := F) (srt := srt) d' (us ++ [p])
      { v with d := d', pm := m } _ rfl I.ew I.eh m3 (by
        rw [List.nodup_append]
        exact ⟨u1, by simp, by rintro a ha b hb rfl; rw [List.mem_singleton] at hb; exact hpu (hb ▸ ha)⟩) (by
        intro u hu
        rw [List.mem_append, List.mem_singleton] at hu
        by_cases hm : u ∈ us
        · simp [hm]
        · obtain rfl := hu.resolve_left hm
          simp only [hm, if_false]
          cases hf : f u with
          | none => rfl
          | some l => exact (hps (f2 u l hf).1).elim) (by
        intro u hu
        exact ((I'.img u (hin u hu)).hashable k).2.2.2.2) (by
        intro u hu
        exact hall u hu)
    refine ⟨v', b1, by rw [b2]; exact I', b3, b4, by rw [b5]; exact m2.trans I.len, _, b6, ?_, ?_⟩
    · intro q l hl
      by_cases hq : q ∈ us ++ [p]
      · simp only [hq, if_true] at hl
        obtain ⟨cs, c1, c2⟩ := cellOf_spec srt k R G hQ I' (hin q hq)
        exact ⟨hin q hq, cs, c1, c2.symm.trans hl⟩
      · rw [if_neg hq] at hl
        rw [List.mem_append, List.mem_singleton, not_or] at hq
        rw [if_neg hq.1] at hl
        obtain ⟨a, b⟩ := f2 q l hl
        have hq' : q ∈ p ::ₘ s := (hmem q).mpr (Or.inr a)
        refine ⟨hq', cellIs_congr (corner_kept I.d I' hr a hq' hq.2 ?_) b⟩
        intro t ht hi
        by_contra hv
        exact hq.1 ((us_mem q).mpr ⟨a, t, ht, hi, by simpa using hv⟩)
    · intro q hq
      by_cases hq' : q ∈ us ++ [p]
      · simp only [hq', if_true]
        exact hall q hq'
      · rw [if_neg hq']
        rw [List.mem_append, List.mem_singleton, not_or] at hq'
        rw [if_neg hq'.1]
        exact f3 q (((hmem q).mp hq).resolve_left hq'.2)

/-- **Remove** keeps the invariant, or it panics because some polygon cannot be computed. -/
theorem vRemove_spec (hf : Faithful F.r64 (side w h)) {v : V} {s : Multiset Pt} (I : VInv g F srt w h v s) {p : Pt} (hm : p ∈ s) (hQ : ∀ x ∈ s, Q x)
    (hd : s.dedup.card ≤ 32767) :
    (∃ v', vRemove g F srt v p = some v' ∧ VInv g F srt w h v' (s.erase p)) ∨
      (vRemove g F srt v p = none ∧ ∃ q ∈ s.erase p, ¬ Computable F srt w h (s.erase p) q) := by
  obtain ⟨d', e1, I', _, hr, _⟩ := remove_full k G hf I.d hm (hQ p hm) hd
  have hp := I.d.img p hm
  have hh := hp.hashable k
  have hcop : pmCopies v.d.pm p = some (s.count p) := pmCopies_spec I.d.pm ⟨⟨hh.1, hh.2.1, hh.2.2.1, hh.2.2.2.1⟩, hh.2.2.2.2⟩
  obtain ⟨f, f1, f2, f3⟩ := I.rep
  have hpos := Multiset.count_pos.mpr hm
  unfold vRemove
  rw [hcop]
  simp only [Option.bind_eq_bind, Option.bind_some]
  by_cases h1 : s.count p > 1
  · rw [if_pos h1, e1]
    have hs : ∀ x, x ∈ s ↔ x ∈ s.erase p := by
      intro x
      by_cases hx : x = p
      · subst hx
        rw [← Multiset.count_pos, ← Multiset.count_pos, Multiset.count_erase_self]
        omega
      · exact (Multiset.mem_erase_of_ne hx).symm
    refine Or.inl ⟨{ v with d := d' }, rfl, I', I.ew, I.eh, I.len, f, f1, ?_, ?_⟩
    · intro q l hl
      obtain ⟨a, b⟩ := f2 q l hl
      exact ⟨(hs q).mp a, cellIs_congr (corner_congr hs q) b⟩
    · intro q hq; exact f3 q ((hs q).mpr hq)
  · rw [if_neg h1]
    have h1' : s.count p = 1 := by omega
    have hr := hr h1'
    have hmem : ∀ x, x ∈ s.erase p ↔ x ≠ p ∧ x ∈ s := by
      intro x
      by_cases hx : x = p
      · subst hx
        rw [← Multiset.count_pos, Multiset.count_erase_self, h1']
        simp
      · simp [Multiset.mem_erase_of_ne hx, hx]
    obtain ⟨ts, t1, t2⟩ := iterVertex_spec I.d G hp (hQ p hm)
    obtain ⟨u1, u2⟩ := updates_spec v.d.sup ts
    set us := ts.foldl (addTriUpdate v.d.sup) [] with hus
    have hsup : ∀ q, v.d.sup.hasVertex q = false ↔ ¬ IsVertex (newSuperTriangle w h) q := by
      intro q; rw [I.d.sup, ← isVertex_bool]; simp
    have us_mem : ∀ q, q ∈ us ↔ q ∈ s ∧ ∃ t ∈ live v.d, t.hasVertex p = true ∧ t.hasVertex q = true := by
      intro q
      rw [u2, hsup]
      constructor
      · rintro ⟨⟨t, ht, hv⟩, hn⟩
        obtain ⟨a, b⟩ := (t2 t).mp ht
        exact ⟨((I.d.vertex_iff q).mp ⟨t, a, (isVertex_bool t q).mp hv⟩).resolve_right hn, t, a, b, hv⟩
      · rintro ⟨hq, t, a, b, hv⟩
        exact ⟨⟨t, (t2 t).mpr ⟨a, b⟩, hv⟩, DInv.inImg_not_super k (I.d.img q hq)⟩
    have hpu : p ∈ us := by
      obtain ⟨t, ht, hv⟩ := (I.d.vertex_iff p).mpr (Or.inl hm)
      have := (isVertex_bool t p).mpr hv
      exact (us_mem p).mpr ⟨hm, t, ht, this, this⟩
    obtain ⟨m, m1, m2, m3⟩ := removeAll_spec us v.pm f f1 u1 (fun u hu => f3 u ((us_mem u).mp hu).1)
    set us' := us.filter (· ≠ p) with hus'
    have hmem' : ∀ q, q ∈ us' ↔ q ∈ us ∧ q ≠ p := by intro q; rw [hus', List.mem_filter]; simp
    have hin : ∀ q ∈ us', q ∈ s.erase p := by
      intro q hq
      rw [hmem'] at hq
      exact (hmem q).mpr ⟨hq.2, ((us_mem q).mp hq.1).1⟩
    rw [t1, e1]
    simp only [Option.bind_some]
    rw [m1]
    simp only [Option.bind_some]
    by_cases hall : ∃ u ∈ us', cellOf g F srt w h d' u = none
    · right
      refine ⟨processAll_none d' us' { v with d := d', pm := m } rfl I.ew I.eh hall, ?_⟩
      obtain ⟨u, hu, hn⟩ := hall
      refine ⟨u, hin u hu, fun hc => ?_⟩
      obtain ⟨cs, c1, c2⟩ := cellOf_spec srt k R G (fun x hx => hQ x (Multiset.mem_of_mem_erase hx)) I' (hin u hu)
      obtain ⟨l, hl⟩ := hc cs c1
      rw [← c2, hn] at hl
      cases hl
    left
    have hall : ∀ u ∈ us', ∃ l, cellOf g F srt w h d' u = some l := by
      intro u hu
      cases hc : cellOf g F srt w h d' u with
      | none => exact (hall ⟨u, hu, hc⟩).elim
      | some l => exact ⟨l, rfl⟩
    obtain ⟨v', b1, b2, b3, b4, b5, b6⟩ := processAll_spec (g := g) (F := F) (srt := srt) d' us'
      { v with d := d', pm := m } _ rfl I.ew I.eh m3 (u1.filter _) (by
        intro u hu
        rw [if_pos ((hmem' u).mp hu).1]) (by
        intro u hu
        exact ((I'.img u (hin u hu)).hashable k).2.2.2.2) (by
        intro u hu
        exact hall u hu)
    refine ⟨v', b1, by rw [b2]; exact I', b3, b4, by rw [b5]; exact m2.trans I.len, _, b6, ?_, ?_⟩
    · intro q l hl
      by_cases hq : q ∈ us'
      · simp only [hq, if_true] at hl
        obtain ⟨cs, c1, c2⟩ := cellOf_spec srt k R G (fun x hx => hQ x (Multiset.mem_of_mem_erase hx)) I' (hin q hq)
        exact ⟨hin q hq, cs, c1, c2.symm.trans hl⟩
      · rw [if_neg hq] at hl
        by_cases hu : q ∈ us
        · rw [if_pos hu] at hl; cases hl
        · rw [if_neg hu] at hl
          obtain ⟨a, b⟩ := f2 q l hl
          have hqp : q ≠ p := by rintro rfl; exact hu hpu
          have hq' : q ∈ s.erase p := (hmem q).mpr ⟨hqp, a⟩
          refine ⟨hq', cellIs_congr (corner_kept I.d I' hr a hq' hqp ?_) b⟩
          intro t ht hi
          by_contra hv
          exact hu ((us_mem q).mpr ⟨a, t, ht, hi, by simpa using hv⟩)
    · intro q hq
      obtain ⟨hqp, hqs⟩ := (hmem q).mp hq
      by_cases hq' : q ∈ us'
      · simp only [hq', if_true]
        exact hall q hq'
      · rw [if_neg hq']
        have : q ∉ us := fun hu => hq' ((hmem' q).mpr ⟨hu, hqp⟩)
        rw [if_neg this]
        exact f3 q hqs

end Verif.Vor

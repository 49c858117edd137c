import Verif.Vor.Corner

/-!
# Which triangles, corners and points the Voronoi functions visit
-/

namespace Verif.Vor

open Verif.Incr hiding trunc step run Entry
open Verif.Tri Verif.Spec Verif.Float

theorem mapM_some {α β : Type} (f : α → Option β) : ∀ l : List α, (∀ a ∈ l, ∃ b, f a = some b) →
    ∃ r, l.mapM f = some r ∧ ∀ b, b ∈ r ↔ ∃ a ∈ l, f a = some b := by
  intro l
  induction l with
  | nil => intro _; exact ⟨[], rfl, by simp⟩
  | cons a l ih =>
    intro hl
    obtain ⟨b, hb⟩ := hl a (by simp)
    obtain ⟨r, hr, hm⟩ := ih (fun x hx => hl x (by simp [hx]))
    refine ⟨b :: r, by simp [List.mapM_cons, hb, hr], fun x => ?_⟩
    simp only [List.mem_cons, hm, exists_eq_or_imp, hb, Option.some.injEq]
    tauto

variable {g : Geo} {w h : Nat} {d : D} {s : Multiset Pt}

theorem cover_of {Q : Pt → Prop} (I : DInv g w h d s) (G : GeoOK g w h Q) {p : Pt} (hp : InImg w h p) (hQ : Q p) {c} (hc : g.cell p = some c) {t : Tri}
    (ht : t ∈ live d) (hpow : (norm t).pow (toP p) ≤ 0) : g.cover t.a t.b t.c c.1 c.2 = true := by
  have ok : ∀ v, (v = t.a ∨ v = t.b ∨ v = t.c) → Ok w h v := fun v hv => verts_ok I.img I.inv ht hv
  have ho := I.inv.ccw _ (List.mem_map_of_mem ht)
  exact G.cover t.a t.b t.c p c (ok _ (Or.inl rfl)) (ok _ (Or.inr (Or.inl rfl))) (ok _ (Or.inr (Or.inr rfl))) hp hQ ho
    (fun v hv => I.inv.del _ (List.mem_map_of_mem ht) v (Or.inr hv)) hpow hc

theorem iterVertex_spec {Q : Pt → Prop} (I : DInv g w h d s) (G : GeoOK g w h Q) {p : Pt} (hp : InImg w h p) (hQ : Q p) :
    ∃ ts, iterVertex g d p = some ts ∧ ∀ t, t ∈ ts ↔ t ∈ live d ∧ t.hasVertex p = true := by
  obtain ⟨c, hc⟩ := G.cell p hp
  obtain ⟨r, hr, hm⟩ := mapM_some (fun k : Nat => d.tris[k]?) (d.cells c.1 c.2) (by
    intro i hi
    obtain ⟨t, ht, _⟩ := (I.slots.cell_iff _ _ i).mp hi
    exact ⟨t, ht⟩)
  refine ⟨r.filter (·.hasVertex p), by simp [iterVertex, hc, hr], fun t => ?_⟩
  rw [List.mem_filter, hm]
  constructor
  · rintro ⟨⟨i, hi, ht⟩, hv⟩
    obtain ⟨t', ht', hf, _⟩ := (I.slots.cell_iff _ _ i).mp hi
    rw [ht] at ht'; cases ht'
    exact ⟨mem_live.mpr ⟨hf, i, ht⟩, hv⟩
  · rintro ⟨hl, hv⟩
    obtain ⟨hf, i, ht⟩ := mem_live.mp hl
    have ho := I.inv.ccw _ (List.mem_map_of_mem hl)
    exact ⟨⟨i, (I.slots.cell_iff _ _ i).mpr ⟨t, ht, hf, cover_of I G hp hQ hc hl
      (T3.pow_vertex _ ho.ne' ((hasVertex_iff t p).mp hv)).le⟩, ht⟩, hv⟩

theorem iterContain_spec {Q : Pt → Prop} (I : DInv g w h d s) (k : SizeOk w h) (G : GeoOK g w h Q) {p : Pt} (hp : InImg w h p) (hQ : Q p) :
    ∃ ts, iterContain g d p = some ts ∧ ∀ t, t ∈ ts ↔ t ∈ live d ∧ inTest p t = true := by
  obtain ⟨c, hc⟩ := G.cell p hp
  obtain ⟨r, hr, hm⟩ := mapM_some (fun k : Nat => (d.tris[k]?).bind fun t => if t.freed then none else some t) (d.cells c.1 c.2) (by
    intro i hi
    obtain ⟨t, ht, hf, _⟩ := (I.slots.cell_iff _ _ i).mp hi
    exact ⟨t, by simp [ht, hf]⟩)
  refine ⟨r.filter (inTest p), by simp [iterContain, hc, hr], fun t => ?_⟩
  rw [List.mem_filter, hm]
  constructor
  · rintro ⟨⟨i, hi, ht⟩, hv⟩
    obtain ⟨t', ht', hf, _⟩ := (I.slots.cell_iff _ _ i).mp hi
    simp only [ht', Option.bind_some, hf, Bool.false_eq_true, if_false, Option.some.injEq] at ht
    subst ht
    exact ⟨mem_live.mpr ⟨hf, i, ht'⟩, hv⟩
  · rintro ⟨hl, hv⟩
    obtain ⟨hf, i, ht⟩ := mem_live.mp hl
    have ok : ∀ v, (v = t.a ∨ v = t.b ∨ v = t.c) → Ok w h v := fun v hv => verts_ok I.img I.inv hl hv
    have ho := I.inv.ccw _ (List.mem_map_of_mem hl)
    have hp' := (inTest_ok k (ok _ (Or.inl rfl)) (ok _ (Or.inr (Or.inl rfl))) (ok _ (Or.inr (Or.inr rfl))) hp ho).mp hv
    exact ⟨⟨i, (I.slots.cell_iff _ _ i).mpr ⟨t, ht, hf, cover_of I G hp hQ hc hl hp'⟩, by simp [ht, hf]⟩, hv⟩

/-! ### The centres -/

theorem addCentre_fold (F : FloatOps) (ts : List Tri) : ∀ ps : List FP, ps.Nodup →
    (ts.foldl (addCentre F) ps).Nodup ∧ ∀ c, c ∈ ts.foldl (addCentre F) ps ↔ c ∈ ps ∨ ∃ t ∈ ts, c = centre F t := by
  induction ts with
  | nil => intro ps hn; exact ⟨hn, by simp⟩
  | cons t ts ih =>
    intro ps hn
    have hn' : (addCentre F ps t).Nodup := by
      unfold addCentre
      split
      · exact hn
      · rename_i hm
        rw [List.nodup_append]
        exact ⟨hn, by simp, by rintro a ha b hb rfl; rw [List.mem_singleton] at hb; exact hm (hb ▸ ha)⟩
    have hm' : ∀ c, c ∈ addCentre F ps t ↔ c ∈ ps ∨ c = centre F t := by
      intro c
      unfold addCentre
      split
      · rename_i hm
        exact ⟨Or.inl, fun h => h.elim id (fun e => e ▸ hm)⟩
      · simp
    obtain ⟨h1, h2⟩ := ih _ hn'
    refine ⟨h1, fun c => ?_⟩
    rw [List.foldl_cons, h2, hm']
    simp only [List.mem_cons, exists_eq_or_imp]
    tauto

theorem centres_spec (F : FloatOps) (ts : List Tri) :
    (centres F ts).Nodup ∧ ∀ c, c ∈ centres F ts ↔ ∃ t ∈ ts, c = centre F t := by
  have := addCentre_fold F ts [] List.nodup_nil
  exact ⟨this.1, fun c => by rw [centres, this.2]; simp⟩

theorem clips_eq (F : FloatOps) (w h : Nat) (ts : List Tri) : clips F w h ts = (centres F ts).any (outside F w h) := by
  rw [Bool.eq_iff_iff, clips, List.any_eq_true, List.any_eq_true]
  constructor
  · rintro ⟨t, ht, ho⟩; exact ⟨_, ((centres_spec F ts).2 _).mpr ⟨t, ht, rfl⟩, ho⟩
  · rintro ⟨c, hc, ho⟩
    obtain ⟨t, ht, rfl⟩ := ((centres_spec F ts).2 c).mp hc
    exact ⟨t, ht, ho⟩

/-- The centres collected for a stored point are the stored corners of its cell. -/
theorem centres_corners {F : FloatOps} {Q : Pt → Prop} (k : SizeOk w h) (R : Rnd 53 F.r64) (G : GeoOK g w h Q) (hQ : ∀ x ∈ s, Q x)
    (I : DInv g w h d s) {q : Pt} (hq : q ∈ s) :
    ∃ ts, iterVertex g d q = some ts ∧ ListsCorners F w h s q (centres F ts) := by
  obtain ⟨ts, h1, h2⟩ := iterVertex_spec I G (I.img q hq) (hQ q hq)
  obtain ⟨c1, c2⟩ := centres_spec F ts
  refine ⟨ts, h1, c1, fun c => ?_⟩
  rw [c2]
  constructor
  · rintro ⟨t, ht, rfl⟩
    obtain ⟨hl, hv⟩ := (h2 t).mp ht
    obtain ⟨o, ho⟩ := centre_exists (I.nondeg hl)
    exact ⟨o, corner_of_tri I hl hv ho, centre_stored k R I hl ho⟩
  · rintro ⟨o, ho, rfl⟩
    obtain ⟨t, hl, hv, hc⟩ := tri_of_corner I (Or.inl hq) ho
    exact ⟨t, (h2 t).mpr ⟨hl, hv⟩, (centre_stored k R I hl hc).symm⟩

theorem cellOf_spec {F : FloatOps} {Q : Pt → Prop} (srt : Sorter) (k : SizeOk w h) (R : Rnd 53 F.r64) (G : GeoOK g w h Q) (hQ : ∀ x ∈ s, Q x)
    (I : DInv g w h d s) {q : Pt} (hq : q ∈ s) :
    ∃ cs, ListsCorners F w h s q cs ∧ cellOf g F srt w h d q = cellPoly F srt w h q cs (cs.any (outside F w h)) := by
  obtain ⟨ts, h1, h2⟩ := centres_corners k R G hQ I hq
  exact ⟨centres F ts, h2, by simp [cellOf, h1, clips_eq]⟩

/-! ### The points to update -/

theorem addUpdate_spec (sup : Tri) {us : List Pt} (hn : us.Nodup) (p : Pt) :
    (addUpdate sup us p).Nodup ∧ ∀ q, q ∈ addUpdate sup us p ↔ q ∈ us ∨ (q = p ∧ sup.hasVertex p = false) := by
  unfold addUpdate
  by_cases h1 : sup.hasVertex p = true
  · rw [if_pos h1]
    exact ⟨hn, fun q => by simp [h1]⟩
  · rw [if_neg h1]
    by_cases h2 : p ∈ us
    · rw [if_pos h2]
      exact ⟨hn, fun q => ⟨Or.inl, fun h => h.elim id (fun e => e.1 ▸ h2)⟩⟩
    · rw [if_neg h2]
      refine ⟨?_, fun q => by simp [h1]⟩
      rw [List.nodup_append]
      exact ⟨hn, by simp, by rintro a ha b hb rfl; rw [List.mem_singleton] at hb; exact h2 (hb ▸ ha)⟩

theorem addTriUpdate_spec (sup : Tri) {us : List Pt} (hn : us.Nodup) (t : Tri) :
    (addTriUpdate sup us t).Nodup ∧
      ∀ q, q ∈ addTriUpdate sup us t ↔ q ∈ us ∨ (t.hasVertex q = true ∧ sup.hasVertex q = false) := by
  unfold addTriUpdate
  obtain ⟨a1, a2⟩ := addUpdate_spec sup hn t.a
  obtain ⟨b1, b2⟩ := addUpdate_spec sup a1 t.b
  obtain ⟨c1, c2⟩ := addUpdate_spec sup b1 t.c
  refine ⟨c1, fun q => ?_⟩
  rw [c2, b2, a2, isVertex_bool]
  unfold IsVertex
  constructor
  · rintro (((h | ⟨rfl, h⟩) | ⟨rfl, h⟩) | ⟨rfl, h⟩)
    · exact Or.inl h
    all_goals exact Or.inr ⟨by tauto, h⟩
  · rintro (h | ⟨rfl | rfl | rfl, h⟩) <;> tauto

theorem updates_fold (sup : Tri) (ts : List Tri) : ∀ us : List Pt, us.Nodup →
    (ts.foldl (addTriUpdate sup) us).Nodup ∧
      ∀ q, q ∈ ts.foldl (addTriUpdate sup) us ↔ q ∈ us ∨ ((∃ t ∈ ts, t.hasVertex q = true) ∧ sup.hasVertex q = false) := by
  induction ts with
  | nil => intro us hn; exact ⟨hn, by simp⟩
  | cons t ts ih =>
    intro us hn
    obtain ⟨a1, a2⟩ := addTriUpdate_spec sup hn t
    obtain ⟨b1, b2⟩ := ih _ a1
    refine ⟨b1, fun q => ?_⟩
    rw [List.foldl_cons, b2, a2]
    simp only [List.mem_cons, exists_eq_or_imp]
    tauto

theorem updates_spec (sup : Tri) (ts : List Tri) :
    (ts.foldl (addTriUpdate sup) []).Nodup ∧
      ∀ q, q ∈ ts.foldl (addTriUpdate sup) [] ↔ (∃ t ∈ ts, t.hasVertex q = true) ∧ sup.hasVertex q = false := by
  have := updates_fold sup ts [] List.nodup_nil
  exact ⟨this.1, fun q => by rw [this.2]; simp⟩

/-! ### Cells that do not change -/

theorem corner_congr {s s' : Multiset Pt} (hs : ∀ x, x ∈ s ↔ x ∈ s') (q : Pt) (o : P2) : Corner w h s q o ↔ Corner w h s' q o := by
  unfold Corner Site
  simp only [hs]

theorem corner_kept {P : Tri → Bool} {p : Pt} {d' : D} {s' : Multiset Pt} (I : DInv g w h d s) (I' : DInv g w h d' s')
    (hr : Replaces P p d d') {q : Pt} (hq : q ∈ s) (hq' : q ∈ s') (hne : q ≠ p)
    (hun : ∀ t ∈ live d, P t = true → t.hasVertex q = false) (o : P2) : Corner w h s q o ↔ Corner w h s' q o := by
  obtain ⟨C, R, N, p1, p2, c1, c2, c3⟩ := hr
  have hC : ∀ t ∈ C, t.hasVertex q = false := fun t ht => hun t (p1.mem_iff.mpr (by simp [ht])) (c1 t ht)
  rw [corner_iff I hq, corner_iff I' hq']
  constructor
  · rintro ⟨t, ht, hv, hc⟩
    rcases List.mem_append.mp (p1.mem_iff.mp ht) with hm | hm
    · rw [hC t hm] at hv; cases hv
    · exact ⟨t, p2.mem_iff.mpr (by simp [hm]), hv, hc⟩
  · rintro ⟨t, ht, hv, hc⟩
    rcases List.mem_append.mp (p2.mem_iff.mp ht) with hm | hm
    · exact ⟨t, p1.mem_iff.mpr (by simp [hm]), hv, hc⟩
    · rcases c3 t hm q hv with e | ⟨u, hu, hv'⟩
      · exact (hne e).elim
      · rw [hC u hu] at hv'; cases hv'

end Verif.Vor

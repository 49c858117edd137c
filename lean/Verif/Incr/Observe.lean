import Verif.Incr.Facts

/-!
# History independence, `Set` and `GetClosestTo`
-/

namespace Verif.Incr

open Verif.Tri Verif.Spec

/-! ### Same points, same triangles -/

/-- Two counterclockwise triangles with the same vertices are rotations of each other. -/
theorem rep_of_has {t t' : T3} (hpos : 0 < t.or) (hpos' : 0 < t'.or)
    (sub : ∀ y, t'.Has y → y = t.a ∨ y = t.b ∨ y = t.c) : t'.Rep t.a t.b t.c := by
  have n' := ne_of_ori_pos hpos'
  have ea := sub t'.a (Or.inl rfl)
  have eb := sub t'.b (Or.inr (Or.inl rfl))
  have ec := sub t'.c (Or.inr (Or.inr rfl))
  obtain ⟨a', b', c'⟩ := t'
  obtain ⟨a, b, c⟩ := t
  simp only [T3.or] at *
  rcases ea with rfl | rfl | rfl <;> rcases eb with rfl | rfl | rfl <;> rcases ec with rfl | rfl | rfl
  all_goals first
    | exact absurd rfl n'.1
    | exact absurd rfl n'.2.1
    | exact absurd rfl n'.2.2
    | exact Or.inl rfl
    | exact Or.inr (Or.inl rfl)
    | exact Or.inr (Or.inr rfl)
    | (exfalso
       have q1 := ori_swap23 a' b' c'
       have q2 := ori_swap a' b' c'
       have q3 := ori_rot a' b' c'
       have q4 := ori_rot' a' b' c'
       have q5 := ori_rot a' c' b'
       have q6 := ori_rot' a' c' b'
       linarith)

theorem mem_verts (t : Tri) (v : Pt) : v ∈ verts t ↔ IsVertex t v := by
  unfold verts IsVertex; simp

theorem VS_congr {s s' : Multiset Pt} (h : ∀ p, p ∈ s ↔ p ∈ s') (x : P2) : VS s x ↔ VS s' x := by
  unfold VS; simp only [h]

namespace DInv

variable {g g' : Geo} {w h : Nat} {d d' : D} {s s' : Multiset Pt}

theorem same_circles (I : DInv g w h d s) (I' : DInv g' w h d' s') (hs : ∀ p, p ∈ s ↔ p ∈ s')
    {t : Tri} (ht : t ∈ live d) :
    ∃ t' ∈ live d', ∃ o, Centre t o ∧ Centre t' o ∧ d2 o t.a = d2 o t'.a := by
  have I2 : Inv (norm (newSuperTriangle w h)) (VS s) ((live d').map norm) :=
    Inv_congr I'.inv (fun x => (VS_congr hs x).symm)
  obtain ⟨T', hT', _, hpow⟩ := same_circle I.inv I2 (List.mem_map_of_mem ht)
  obtain ⟨t', ht', rfl⟩ := List.mem_map.mp hT'
  obtain ⟨o, ho⟩ := centre_exists (I.nondeg ht)
  have hd : ∀ v, IsVertex t' v → d2 o v = d2 o t.a := by
    intro v hv
    have h1 := pow_d2 (I.nondeg ht) ho v
    rw [hpow, T3.pow_vertex _ (I'.inv.ccw _ (List.mem_map_of_mem ht')).ne' ((isVertex_iff t' v).mp hv)] at h1
    linarith
  have ha := hd t'.a (Or.inl rfl)
  refine ⟨t', ht', o, ho, ⟨?_, ?_⟩, ha.symm⟩
  · rw [ha, hd t'.b (Or.inr (Or.inl rfl))]
  · rw [ha, hd t'.c (Or.inr (Or.inr rfl))]

theorem same_verts (I : DInv g w h d s) (I' : DInv g' w h d' s') (hs : ∀ p, p ∈ s ↔ p ∈ s')
    (gp : GeneralPosition (fun v => v ∈ s ∨ IsVertex (newSuperTriangle w h) v)) {t : Tri} (ht : t ∈ live d) :
    ∃ t' ∈ live d', verts t' = verts t := by
  obtain ⟨t', ht', o, c1, c2, hr⟩ := I.same_circles I' hs ht
  refine ⟨t', ht', ?_⟩
  have hW : ∀ v, IsVertex t' v → (v ∈ s ∨ IsVertex (newSuperTriangle w h) v) := by
    intro v hv
    have := (I'.vertex_iff v).mp ⟨t', ht', hv⟩
    rwa [← hs] at this
  have hWt : ∀ v, IsVertex t v → (v ∈ s ∨ IsVertex (newSuperTriangle w h) v) :=
    fun v hv => (I.vertex_iff v).mp ⟨t, ht, hv⟩
  have sub : ∀ v, IsVertex t' v → IsVertex t v := by
    intro v hv
    have hdv : d2 o v = d2 o t.a := by
      rcases hv with rfl | rfl | rfl
      · exact hr.symm
      · rw [← c2.1]; exact hr.symm
      · rw [← c2.2]; exact hr.symm
    exact gp t.a t.b t.c v (hWt _ (Or.inl rfl)) (hWt _ (Or.inr (Or.inl rfl))) (hWt _ (Or.inr (Or.inr rfl)))
      (hW v hv) ⟨o, c1, hdv⟩ (I.nondeg ht)
  have hrep := rep_of_has (I.inv.ccw _ (List.mem_map_of_mem ht)) (I'.inv.ccw _ (List.mem_map_of_mem ht'))
    (by
      intro y hy
      rcases (norm_has t' y).mp hy with rfl | rfl | rfl
      · exact (isVertex_iff t _).mp (sub _ (Or.inl rfl))
      · exact (isVertex_iff t _).mp (sub _ (Or.inr (Or.inl rfl)))
      · exact (isVertex_iff t _).mp (sub _ (Or.inr (Or.inr rfl))))
  ext v
  rw [mem_verts, mem_verts, isVertex_iff, isVertex_iff, hrep.has_iff]
  rfl

theorem verts_nodup (I : DInv g w h d s) : ((live d).map verts).Nodup := by
  have hd := List.pairwise_map.mp I.inv.disjoint
  refine List.pairwise_map.mpr (hd.imp_of_mem ?_)
  intro t u ht hu hdis he
  have ht' := I.inv.ccw _ (List.mem_map_of_mem ht)
  have hu' := I.inv.ccw _ (List.mem_map_of_mem hu)
  have hrep := rep_of_has ht' hu' (by
    intro y hy
    have : ∃ v, IsVertex u v ∧ y = toP v := by
      rcases (norm_has u y).mp hy with rfl | rfl | rfl
      · exact ⟨_, Or.inl rfl, rfl⟩
      · exact ⟨_, Or.inr (Or.inl rfl), rfl⟩
      · exact ⟨_, Or.inr (Or.inr rfl), rfl⟩
    obtain ⟨v, hv, rfl⟩ := this
    have : IsVertex t v := by rwa [← mem_verts, he, mem_verts]
    exact (isVertex_iff t v).mp this)
  exact hdis (norm t).mid ⟨(norm t).mid_half ht', (hrep.half_iff _).mpr ((norm t).mid_half ht')⟩

/-- The same set of triangles. -/
theorem same_perm (I : DInv g w h d s) (I' : DInv g' w h d' s') (hs : ∀ p, p ∈ s ↔ p ∈ s')
    (gp : GeneralPosition (fun v => v ∈ s ∨ IsVertex (newSuperTriangle w h) v)) :
    ((live d).map verts).Perm ((live d').map verts) := by
  refine (List.perm_ext_iff_of_nodup I.verts_nodup I'.verts_nodup).mpr ?_
  intro S
  constructor
  · intro hS
    obtain ⟨t, ht, rfl⟩ := List.mem_map.mp hS
    obtain ⟨t', ht', he⟩ := I.same_verts I' hs gp ht
    exact List.mem_map.mpr ⟨t', ht', he⟩
  · intro hS
    obtain ⟨t, ht, rfl⟩ := List.mem_map.mp hS
    obtain ⟨t', ht', he⟩ := I'.same_verts I (fun p => (hs p).symm) (by simpa only [← hs] using gp) ht
    exact List.mem_map.mpr ⟨t', ht', he⟩

theorem iter_live (d : D) : iterTriangles d = (live d).filter (fun t =>
    (t.a != d.sup.a && t.b != d.sup.a && t.c != d.sup.a &&
     t.a != d.sup.b && t.b != d.sup.b && t.c != d.sup.b &&
     t.a != d.sup.c && t.b != d.sup.c && t.c != d.sup.c)) := by
  unfold iterTriangles live
  rw [List.filter_filter]
  apply List.filter_congr
  intro t _
  exact Bool.and_comm _ _

/-- The same triangles are reported. -/
theorem same_iter (k : SizeOk w h) (I : DInv g w h d s) (I' : DInv g' w h d' s') (hs : ∀ p, p ∈ s ↔ p ∈ s')
    (gp : GeneralPosition (fun v => v ∈ s ∨ IsVertex (newSuperTriangle w h) v)) :
    ((iterTriangles d).map verts).Perm ((iterTriangles d').map verts) := by
  have nd : ∀ {g : Geo} {d : D} {s : Multiset Pt}, DInv g w h d s → ((iterTriangles d).map verts).Nodup := by
    intro g d s I
    rw [iter_live]
    exact I.verts_nodup.sublist (List.filter_sublist.map _)
  have key : ∀ {g g' : Geo} {d d' : D} {s s' : Multiset Pt}, DInv g w h d s → DInv g' w h d' s' →
      (∀ p, p ∈ s ↔ p ∈ s') → GeneralPosition (fun v => v ∈ s ∨ IsVertex (newSuperTriangle w h) v) →
      ∀ S, S ∈ (iterTriangles d).map verts → S ∈ (iterTriangles d').map verts := by
    intro g g' d d' s s' I I' hs gp S hS
    obtain ⟨t, ht, rfl⟩ := List.mem_map.mp hS
    obtain ⟨hl, ha, hb, hc⟩ := (I.iter_iff k t).mp ht
    obtain ⟨t', ht', he⟩ := I.same_verts I' hs gp hl
    have hall : ∀ v, IsVertex t' v → v ∈ s' := by
      intro v hv
      rw [← mem_verts, he, mem_verts] at hv
      rw [← hs]
      rcases hv with rfl | rfl | rfl <;> assumption
    exact List.mem_map.mpr ⟨t', (I'.iter_iff k t').mpr ⟨ht', hall _ (Or.inl rfl), hall _ (Or.inr (Or.inl rfl)),
      hall _ (Or.inr (Or.inr rfl))⟩, he⟩
  refine (List.perm_ext_iff_of_nodup (nd I) (nd I')).mpr (fun S => ⟨key I I' hs gp S, ?_⟩)
  exact key I' I (fun p => (hs p).symm) (by simpa only [← hs] using gp) S

end DInv

/-! ### Nearest point -/

theorem closer_fold (p : Pt) (L : List Pt) (b : Int × Pt) :
    ((L.foldl (closer p) b).1 ≤ b.1 ∧ (∀ v ∈ L, (L.foldl (closer p) b).1 ≤ distSq p v)) ∧
    (L.foldl (closer p) b = b ∨ ((L.foldl (closer p) b).2 ∈ L ∧
      (L.foldl (closer p) b).1 = distSq p (L.foldl (closer p) b).2)) := by
  induction L generalizing b with
  | nil => simp
  | cons v L ih =>
    rw [List.foldl_cons]
    obtain ⟨⟨h1, h2⟩, h3⟩ := ih (closer p b v)
    have hc : (closer p b v).1 ≤ b.1 ∧ (closer p b v).1 ≤ distSq p v ∧
        (closer p b v = b ∨ closer p b v = (distSq p v, v)) := by
      unfold closer
      split
      · rename_i hlt; exact ⟨hlt.le, le_refl _, Or.inr rfl⟩
      · rename_i hlt; exact ⟨le_refl _, not_lt.mp hlt, Or.inl rfl⟩
    refine ⟨⟨h1.trans hc.1, ?_⟩, ?_⟩
    · intro u hu
      rcases List.mem_cons.mp hu with rfl | hu
      · exact h1.trans hc.2.1
      · exact h2 u hu
    · rcases h3 with h3 | ⟨h3, h4⟩
      · rw [h3]
        rcases hc.2.2 with h5 | h5
        · left; exact h5
        · right; rw [h5]; simp
      · right; exact ⟨by simp [h3], h4⟩

theorem getClosest_fold (d : D) (p : Pt) : getClosestTo d p =
    (((live d).flatMap (fun t => [t.a, t.b, t.c])).foldl (closer p) (9223372036854775807, ⟨0, 0⟩)).2 := by
  unfold getClosestTo live
  congr 1
  generalize ((9223372036854775807 : Int), (⟨0, 0⟩ : Pt)) = b
  induction d.tris generalizing b with
  | nil => rfl
  | cons t T ih =>
    rw [List.foldl_cons, List.filter_cons]
    by_cases hf : t.freed = true
    · rw [if_pos hf, if_neg (by simp [hf]), ih]
    · rw [if_neg hf, if_pos (by simp [hf]), ih, List.flatMap_cons, List.foldl_append]
      rfl

theorem distSq_ok {w h : Nat} (k : SizeOk w h) {v p : Pt} (hv : Ok w h v) (hp : InImg w h p) :
    distSq p v = (v.x - p.x) ^ 2 + (v.y - p.y) ^ 2 ∧ distSq p v < 9223372036854775807 := by
  obtain ⟨e1, e2⟩ := diff16 k hv hp
  have c := hv.close k hp
  unfold distSq
  simp only
  rw [e1, e2]
  have hb := abs_le.mp (abs_add_le' (abs_mul_le' c.x c.x) (abs_mul_le' c.y c.y))
  rw [w64_id (by omega) (by omega)]
  exact ⟨by ring, by omega⟩

/-- Bounding vertices are farther from any image point than any image point. -/
theorem super_far {w h : Nat} (k : SizeOk w h) (h4 : 4 ≤ side w h) {v p q : Pt}
    (hv : (newSuperTriangle w h).hasVertex v = true) (hp : InImg w h p) (hq : InImg w h q) :
    (q.x - p.x) ^ 2 + (q.y - p.y) ^ 2 < (v.x - p.x) ^ 2 + (v.y - p.y) ^ 2 := by
  have hs := side_bounds k
  obtain ⟨p1, p2, p3, p4⟩ := hp
  obtain ⟨q1, q2, q3, q4⟩ := hq
  set n : Int := (side w h : Int) with hn
  have hw : (w : Int) ≤ n := by omega
  have hh : (h : Int) ≤ n := by omega
  have n4 : 4 ≤ n := by omega
  have sq : ∀ z : Int, -n ≤ z → z ≤ n → z ^ 2 ≤ n ^ 2 := by
    intro z h1 h2
    nlinarith
  have s1 := sq (q.x - p.x) (by omega) (by omega)
  have s2 := sq (q.y - p.y) (by omega) (by omega)
  have big : ∀ z m : Int, 0 ≤ m → (m ≤ z ∨ z ≤ -m) → m ^ 2 ≤ z ^ 2 := by
    intro z m h0 hz
    rcases hz with hz | hz <;> nlinarith
  rcases super_verts k hv with ⟨e1, e2⟩ | ⟨e1, e2⟩ | ⟨e1, e2⟩ <;> rw [e1, e2] <;> rw [← hn] at *
  · -- twice the horizontal distance is at least 3n - 1, twice the vertical at least n - 1
    have b1 := big (2 * (((w + 1) / 2 : Nat) - 2 * n - p.x)) (3 * n - 1) (by omega) (by omega)
    have b2 := big (2 * (((h + 1) / 2 : Nat) - n - p.y)) (n - 1) (by omega) (by omega)
    nlinarith
  · have b2 := big (2 * (((h + 1) / 2 : Nat) + 2 * n - p.y)) (3 * n) (by omega) (by omega)
    nlinarith [sq_nonneg (((w + 1) / 2 : Nat) - p.x)]
  · have b1 := big (2 * (((w + 1) / 2 : Nat) + 2 * n - p.x)) (3 * n) (by omega) (by omega)
    nlinarith [sq_nonneg (((h + 1) / 2 : Nat) - n - p.y)]

theorem DInv.closest {g : Geo} {w h : Nat} {d : D} {s : Multiset Pt} (I : DInv g w h d s) (k : SizeOk w h)
    (h4 : 4 ≤ side w h) (hne : s ≠ 0) {p : Pt} (hp : InImg w h p) :
    getClosestTo d p ∈ s ∧ ∀ q ∈ s, ((getClosestTo d p).x - p.x) ^ 2 + ((getClosestTo d p).y - p.y) ^ 2 ≤
      (q.x - p.x) ^ 2 + (q.y - p.y) ^ 2 := by
  rw [getClosest_fold]
  set L := (live d).flatMap (fun t => [t.a, t.b, t.c]) with hL
  have mL : ∀ v, v ∈ L ↔ v ∈ s ∨ IsVertex (newSuperTriangle w h) v := by
    intro v
    rw [← I.vertex_iff, hL, List.mem_flatMap]
    simp only [List.mem_cons, List.not_mem_nil, or_false]
    rfl
  have ok : ∀ v ∈ L, Ok w h v := by
    intro v hv
    rcases (mL v).mp hv with hv | hv
    · exact Or.inl (I.img v hv)
    · exact Or.inr ((isVertex_bool _ _).mpr hv)
  obtain ⟨q0, hq0⟩ := Multiset.exists_mem_of_ne_zero hne
  obtain ⟨⟨_, h2⟩, h3⟩ := closer_fold p L (9223372036854775807, ⟨0, 0⟩)
  set r := L.foldl (closer p) (9223372036854775807, ⟨0, 0⟩) with hr
  have hq0L := (mL q0).mpr (Or.inl hq0)
  rcases h3 with h3 | ⟨h3, h4'⟩
  · exfalso
    have := h2 q0 hq0L
    rw [h3] at this
    have := (distSq_ok k (ok q0 hq0L) hp).2
    simp only at *
    omega
  · have hmin : ∀ q ∈ s, (r.2.x - p.x) ^ 2 + (r.2.y - p.y) ^ 2 ≤ (q.x - p.x) ^ 2 + (q.y - p.y) ^ 2 := by
      intro q hq
      have hqL := (mL q).mpr (Or.inl hq)
      have := h2 q hqL
      rw [h4', (distSq_ok k (ok _ h3) hp).1, (distSq_ok k (ok q hqL) hp).1] at this
      exact this
    refine ⟨?_, hmin⟩
    rcases (mL r.2).mp h3 with h5 | h5
    · exact h5
    · exfalso
      have h6 := super_far k h4 ((isVertex_bool _ _).mpr h5) hp (I.img q0 hq0)
      have h7 := hmin q0 hq0
      omega

/-! ### Set -/

/-- Forget the two counters. -/
def strip (d : D) : D := { d with numPoints := 0, unique := 0 }

theorem addTriangle_strip (g : Geo) (d : D) (t : Tri) :
    addTriangle g (strip d) t = (addTriangle g d t).map strip := by
  unfold addTriangle strip
  cases hd : d.free with
  | nil => simp [hd]
  | cons i fr =>
    by_cases hi : i < d.tris.length
    · simp [hd, hi]
    · simp [hd, hi]

theorem markFree_strip (d : D) (i : Nat) : markFree (strip d) i = strip (markFree d i) := by
  unfold markFree strip
  cases hi : d.tris[i]? <;> simp [hi]

theorem removeLoop_strip (g : Geo) (c : Bool) (q : Tri → Bool) (x y : Nat) : ∀ (n i : Nat) (d : D) (acc : List Tri),
    removeLoop g c q x y n i (strip d) acc = (removeLoop g c q x y n i d acc).map (fun r => (strip r.1, r.2)) := by
  intro n
  induction n with
  | zero => intro i d acc; rfl
  | succ n ih =>
    intro i d acc
    have hc : (strip d).cells = d.cells := rfl
    have htr : (strip d).tris = d.tris := rfl
    simp only [removeLoop, hc, htr]
    cases h1 : (d.cells x y)[i]? with
    | none => rfl
    | some j =>
      simp only
      cases h2 : d.tris[j]? with
      | none => rfl
      | some t =>
        simp only
        by_cases h3 : (c && t.freed) = true
        · rw [if_pos h3, if_pos h3]; rfl
        · rw [if_neg h3, if_neg h3]
          by_cases h4 : q t = true
          · rw [if_pos h4, if_pos h4, markFree_strip]
            exact ih i { markFree d j with cells := gridRemove g (markFree d j).cells t j } _
          · rw [if_neg h4, if_neg h4]
            exact ih _ d _

theorem fillEdges_strip (g : Geo) (p : Pt) : ∀ (es : List Edge) (d : D),
    fillEdges g p (strip d) es = (fillEdges g p d es).map strip := by
  intro es
  induction es with
  | nil => intro d; rfl
  | cons e es ih =>
    intro d
    simp only [fillEdges]
    split
    · rw [addTriangle_strip]
      cases h1 : addTriangle g d ⟨e.1, e.2, p⟩ with
      | none => rfl
      | some d' =>
        simp only [Option.map_some, Option.bind_eq_bind, Option.bind_some]
        exact ih d'
    · exact ih d

theorem earLoop_strip (g : Geo) (fl : ℚ → ℚ) (p : Pt) : ∀ (n : Nat) (d : D) (es : List Ear),
    earLoop g fl p n (strip d) es = (earLoop g fl p n d es).map strip := by
  intro n
  induction n with
  | zero =>
    intro d es
    simp only [earLoop]
    cases es[0]? with
    | none => rfl
    | some e => exact addTriangle_strip g d _
  | succ n ih =>
    intro d es
    simp only [earLoop]
    cases es[lowestEar es 0 none 0]? with
    | none => rfl
    | some e =>
      simp only [Option.bind_eq_bind, Option.bind_some]
      rw [addTriangle_strip]
      cases addTriangle g d ⟨e.a, e.b, e.c⟩ with
      | none => rfl
      | some d' =>
        simp only [Option.map_some, Option.bind_some]
        cases cutEar fl p es (lowestEar es 0 none 0) with
        | none => rfl
        | some es' => exact ih d' es'

/-- The counters influence nothing else. -/
theorem step_strip (g : Geo) (fl : ℚ → ℚ) (d : D) (o : Op) :
    (step g fl (strip d) o).map strip = (step g fl d o).map strip := by
  cases o with
  | ins p =>
    simp only [step, insert]
    have : (strip d).pm = d.pm := rfl
    rw [this]
    cases h1 : pmAdd d.pm p with
    | none => rfl
    | some r =>
      simp only [Option.bind_eq_bind, Option.bind_some]
      cases h2 : g.cell p with
      | none => rfl
      | some c =>
        simp only [Option.bind_some]
        have key : ∀ a b : Int, ∀ d0 : D,
            (({ d0 with pm := r.1, unique := a, numPoints := b } : D)) =
              { d0 with pm := r.1, unique := a, numPoints := b } := fun _ _ _ => rfl
        set e1 : D := { strip d with pm := r.1, unique := if r.2 = 1 then (strip d).unique + 1 else (strip d).unique,
                                     numPoints := (strip d).numPoints + 1 } with he1
        set e2 : D := { d with pm := r.1, unique := if r.2 = 1 then d.unique + 1 else d.unique,
                               numPoints := d.numPoints + 1 } with he2
        have hs : strip e1 = strip e2 := rfl
        have hcells : e1.cells = e2.cells := rfl
        have k1 := removeLoop_strip g true (inTest p) c.1 c.2 (e1.cells c.1 c.2).length 0 e1 []
        have k2 := removeLoop_strip g true (inTest p) c.1 c.2 (e1.cells c.1 c.2).length 0 e2 []
        rw [hs, k2, hcells] at k1
        rw [hcells]
        revert k1
        cases removeLoop g true (inTest p) c.1 c.2 (e2.cells c.1 c.2).length 0 e1 [] with
        | none =>
          cases removeLoop g true (inTest p) c.1 c.2 (e2.cells c.1 c.2).length 0 e2 [] with
          | none => intro _; rfl
          | some y => intro k1; cases k1
        | some x =>
          cases removeLoop g true (inTest p) c.1 c.2 (e2.cells c.1 c.2).length 0 e2 [] with
          | none => intro k1; cases k1
          | some y =>
            intro k1
            simp only [Option.map_some, Option.some_inj, Prod.mk.injEq] at k1
            simp only [Option.bind_some]
            rw [← fillEdges_strip, ← fillEdges_strip, ← k1.1, k1.2]
  | rem p =>
    simp only [step, remove]
    have : (strip d).pm = d.pm := rfl
    rw [this]
    cases h1 : pmRemove d.pm p with
    | none => rfl
    | some r =>
      simp only [Option.bind_eq_bind, Option.bind_some]
      by_cases h0 : r.2 ≠ 0
      · rw [if_pos h0, if_pos h0]; rfl
      · rw [if_neg h0, if_neg h0]
        cases h2 : g.cell p with
        | none => rfl
        | some c =>
          simp only [Option.bind_some]
          set e1 : D := { strip d with numPoints := (strip d).numPoints - 1, pm := r.1,
                                       unique := (strip d).unique - 1 } with he1
          set e2 : D := { d with numPoints := d.numPoints - 1, pm := r.1, unique := d.unique - 1 } with he2
          have hs : strip e1 = strip e2 := rfl
          have hcells : (strip d).cells = d.cells := rfl
          have k1 := removeLoop_strip g false (·.hasVertex p) c.1 c.2 (d.cells c.1 c.2).length 0 e1 []
          have k2 := removeLoop_strip g false (·.hasVertex p) c.1 c.2 (d.cells c.1 c.2).length 0 e2 []
          rw [hs, k2] at k1
          rw [hcells]
          revert k1
          cases removeLoop g false (·.hasVertex p) c.1 c.2 (d.cells c.1 c.2).length 0 e1 [] with
          | none =>
            cases removeLoop g false (·.hasVertex p) c.1 c.2 (d.cells c.1 c.2).length 0 e2 [] with
            | none => intro _; rfl
            | some y => intro k1; cases k1
          | some x =>
            cases removeLoop g false (·.hasVertex p) c.1 c.2 (d.cells c.1 c.2).length 0 e2 [] with
            | none => intro k1; cases k1
            | some y =>
              intro k1
              simp only [Option.map_some, Option.some_inj, Prod.mk.injEq] at k1
              simp only [Option.bind_some]
              rw [k1.2]
              cases hullSort p (List.foldl (addTriPoints p) [] x.2) with
              | none => rfl
              | some hull =>
                simp only [Option.bind_some]
                rw [← earLoop_strip, ← earLoop_strip, ← k1.1]

theorem run_strip (g : Geo) (fl : ℚ → ℚ) (ops : List Op) : ∀ {d d' : D}, strip d = strip d' →
    (run g fl d ops).map strip = (run g fl d' ops).map strip := by
  induction ops with
  | nil => intro d d' h; simpa [run] using h
  | cons o ops ih =>
    intro d d' h
    have h1 : (step g fl d o).map strip = (step g fl d' o).map strip := by
      rw [← step_strip, ← step_strip g fl d', h]
    simp only [run, List.foldlM_cons, Option.bind_eq_bind]
    revert h1
    cases step g fl d o <;> cases step g fl d' o <;> intro h1
    · rfl
    · cases h1
    · cases h1
    · simp only [Option.map_some, Option.some_inj] at h1
      exact ih h1

/-- `Set` copies everything except the counters, whatever the receiver held. -/
theorem setFrom_strip (d : D) (bufs : Bufs) (o : D) (h : d.pm.length = o.pm.length) :
    strip (setFrom d bufs o) = strip o := by
  unfold setFrom strip
  simp only [setSlice_eq, List.reverse_reverse]
  have : (List.range d.pm.length).map (fun i => o.pm.getD i []) = o.pm := by
    rw [h]
    apply List.ext_getElem
    · simp
    · intro i h1 h2
      simp [List.getD_eq_getElem?_getD, List.getElem?_eq_getElem h2]
  rw [this]

end Verif.Incr

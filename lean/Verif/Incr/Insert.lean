import Verif.Incr.Slots
import Verif.Incr.PMap
import Verif.Incr.Geom
import Mathlib.Data.Multiset.Dedup
import Mathlib.Data.Multiset.Basic

/-!
# Refinement of `Insert`
-/

namespace Verif.Incr

open Verif.Tri

/-- The stored points as a set of the plane. -/
def VS (s : Multiset Pt) (x : P2) : Prop := ∃ p ∈ s, x = toP p

/-- What the grid geometry must provide: every image point has a box, and a triangle whose closed
circumdisc contains a point with `Q` is listed in the box of that point. -/
structure GeoOK (g : Geo) (w h : Nat) (Q : Pt → Prop) : Prop where
  cell : ∀ p, InImg w h p → ∃ c, g.cell p = some c
  cover : ∀ a b c p k, Ok w h a → Ok w h b → Ok w h c → InImg w h p → Q p →
    0 < (norm ⟨a, b, c⟩).or →
    (∀ v, (norm (newSuperTriangle w h)).Has v → 0 ≤ (norm ⟨a, b, c⟩).pow v) →
    (norm ⟨a, b, c⟩).pow (toP p) ≤ 0 → g.cell p = some k → g.cover a b c k.1 k.2 = true

theorem GeoOK.mono {g : Geo} {w h : Nat} {Q Q' : Pt → Prop} (G : GeoOK g w h Q) (hQ : ∀ p, Q' p → Q p) : GeoOK g w h Q' :=
  ⟨G.cell, fun a b c p k ha hb hc hp q => G.cover a b c p k ha hb hc hp (hQ p q)⟩

/-- The invariant of a triangulation of a `w` x `h` image holding the points `s`. -/
structure DInv (g : Geo) (w h : Nat) (d : D) (s : Multiset Pt) : Prop where
  slots : SInv g d
  sup : d.sup = newSuperTriangle w h
  inv : Inv (norm (newSuperTriangle w h)) (VS s) ((live d).map norm)
  img : ∀ p ∈ s, InImg w h p
  pm : PMRep d.pm (fun p => s.count p)
  np : d.numPoints = s.card
  pmn : pmNumPoints d.pm = s.card
  uq : d.unique = s.dedup.card

theorem Inv_perm {s : T3} {V : P2 → Prop} {T U : List T3} (I : Inv s V T) (h : T.Perm U) : Inv s V U where
  sccw := I.sccw
  ccw := fun t ht => I.ccw t (h.mem_iff.mpr ht)
  chain := fun f hf => by
    rw [← I.chain f hf]
    unfold tsum
    exact (h.map _).sum_eq.symm
  verts := fun t ht => I.verts t (h.mem_iff.mpr ht)
  inside := I.inside
  del := fun t ht => I.del t (h.mem_iff.mpr ht)

theorem Inv_congr {s : T3} {V W : P2 → Prop} {T : List T3} (I : Inv s V T) (h : ∀ x, V x ↔ W x) :
    Inv s W T := by
  have : V = W := funext fun x => propext (h x)
  rwa [← this]

theorem verts_ok {w h : Nat} {s : Multiset Pt} {L : List Tri} (img : ∀ p ∈ s, InImg w h p)
    (I : Inv (norm (newSuperTriangle w h)) (VS s) (L.map norm)) {t : Tri} (ht : t ∈ L) {v : Pt}
    (hv : v = t.a ∨ v = t.b ∨ v = t.c) : Ok w h v := by
  have h1 : (norm t).Has (toP v) := by
    rw [norm_has]
    rcases hv with rfl | rfl | rfl <;> simp
  rcases I.verts (norm t) (List.mem_map_of_mem ht) _ h1 with ⟨p, hp, he⟩ | h2
  · rw [toP_inj he]; exact Or.inl (img p hp)
  · exact Or.inr ((hasVertex_iff _ _).mpr h2)

theorem inTest_ok {w h : Nat} (k : SizeOk w h) {t : Tri} {p : Pt} (ha : Ok w h t.a) (hb : Ok w h t.b)
    (hc : Ok w h t.c) (hp : InImg w h p) (ho : 0 < (norm t).or) :
    inTest p t = true ↔ (norm t).pow (toP p) ≤ 0 :=
  inTest_iff (ha.near k) (hb.near k) (hc.near k) (ha.close k hp) (hb.close k hp) (hc.close k hp) ho

/-! ### Directed and undirected edges -/

theorem newEdge_cases (a b : Pt) : newEdge a b = (a, b) ∨ newEdge a b = (b, a) := by
  unfold newEdge; split
  · exact Or.inr rfl
  · split
    · split
      · exact Or.inr rfl
      · exact Or.inl rfl
    · exact Or.inl rfl

theorem newEdge_comm (a b : Pt) : newEdge a b = newEdge b a := by
  by_cases he : a = b
  · subst he; rfl
  · have : a.x ≠ b.x ∨ a.y ≠ b.y := by
      by_contra hn
      push Not at hn
      exact he (Pt.ext hn.1 hn.2)
    unfold newEdge
    split_ifs <;> first | rfl | (exfalso; omega)

/-- Image of an edge in the plane. -/
def toE (e : Edge) : P2 × P2 := (toP e.1, toP e.2)

def swE (e : P2 × P2) : P2 × P2 := (e.2, e.1)

theorem toE_inj {e f : Edge} (h : toE e = toE f) : e = f := by
  unfold toE at h
  simp only [Prod.mk.injEq] at h
  exact Prod.ext (toP_inj h.1) (toP_inj h.2)

theorem newEdge_eq_iff {u v : Pt} {f : Edge} (hf : newEdge f.1 f.2 = f) :
    newEdge u v = f ↔ (u, v) = f ∨ (v, u) = f := by
  constructor
  · intro h
    rcases newEdge_cases u v with k | k
    · left; rw [← k, h]
    · right; rw [← k, h]
  · rintro (h | h)
    · rw [← h] at hf ⊢; exact hf
    · rw [← h] at hf ⊢; rw [newEdge_comm]; exact hf

theorem newEdge_sorted (u v : Pt) : newEdge (newEdge u v).1 (newEdge u v).2 = newEdge u v := by
  rcases newEdge_cases u v with k | k
  · rw [k]; exact k
  · rw [k]; simp only; rw [newEdge_comm]; exact k

theorem count_edge {u v : Pt} {f : Edge} (hf : newEdge f.1 f.2 = f) (hne : f.1 ≠ f.2) :
    (if newEdge u v = f then 1 else 0) =
      ([(toP u, toP v)].count (toE f) + [(toP u, toP v)].count (swE (toE f)) : Nat) := by
  have e1 : ((toP u, toP v) = toE f) ↔ (u, v) = f :=
    ⟨fun h => toE_inj (e := (u, v)) h, fun h => by rw [← h]; rfl⟩
  have e2 : ((toP u, toP v) = swE (toE f)) ↔ (v, u) = f := by
    constructor
    · intro h
      unfold swE toE at h
      simp only [Prod.mk.injEq] at h
      exact Prod.ext (toP_inj h.2) (toP_inj h.1)
    · intro h; rw [← h]; rfl
  rw [List.count_singleton, List.count_singleton]
  simp only [beq_iff_eq, e1, e2, newEdge_eq_iff hf]
  by_cases h1 : (u, v) = f
  · have h2 : ¬ (v, u) = f := by
      intro h2
      rw [← h2] at h1
      simp only [Prod.mk.injEq] at h1
      apply hne
      rw [← h2]; exact h1.2
    simp [h1, h2]
  · simp [h1]

theorem count_tri {t : Tri} {f : Edge} (hf : newEdge f.1 f.2 = f) (hne : f.1 ≠ f.2) :
    ([newEdge t.a t.b, newEdge t.b t.c, newEdge t.c t.a] : List Edge).count f =
      (norm t).edges.count (toE f) + (norm t).edges.count (swE (toE f)) := by
  have h1 := count_edge (u := t.a) (v := t.b) hf hne
  have h2 := count_edge (u := t.b) (v := t.c) hf hne
  have h3 := count_edge (u := t.c) (v := t.a) hf hne
  have g1 := count_edge (u := t.b) (v := t.a) hf hne
  have g2 := count_edge (u := t.c) (v := t.b) hf hne
  have g3 := count_edge (u := t.a) (v := t.c) hf hne
  rw [newEdge_comm] at g1 g2 g3
  have hl : ([newEdge t.a t.b, newEdge t.b t.c, newEdge t.c t.a] : List Edge).count f =
      (if newEdge t.a t.b = f then 1 else 0) + (if newEdge t.b t.c = f then 1 else 0)
        + (if newEdge t.c t.a = f then 1 else 0) := by
    simp only [List.count_cons, List.count_nil, beq_iff_eq]; omega
  rw [hl]
  have hc : ∀ (x y z : P2 × P2) (F : P2 × P2), [x, y, z].count F = [x].count F + [y].count F + [z].count F := by
    intro x y z F
    simp only [List.count_cons, List.count_nil]; omega
  unfold norm T3.edges
  by_cases ho : 0 < ori (toP t.a) (toP t.b) (toP t.c)
  · simp only [if_pos ho]
    rw [hc, hc, h1, h2, h3]; omega
  · simp only [if_neg ho]
    rw [hc, hc, g1, g2, g3]; omega

theorem count_undir (C : List Tri) {f : Edge} (hf : newEdge f.1 f.2 = f) (hne : f.1 ≠ f.2) :
    (undir C).count f = (edgesOf (C.map norm)).count (toE f) + (edgesOf (C.map norm)).count (swE (toE f)) := by
  induction C with
  | nil => rfl
  | cons t C ih =>
    have e1 : undir (t :: C) = [newEdge t.a t.b, newEdge t.b t.c, newEdge t.c t.a] ++ undir C := by
      simp [undir]
    have e2 : edgesOf ((t :: C).map norm) = (norm t).edges ++ edgesOf (C.map norm) := by
      simp [edgesOf]
    rw [e1, e2, List.count_append, List.count_append, List.count_append, ih, count_tri hf hne]
    omega

theorem mem_undir {C : List Tri} (hC : ∀ t ∈ C, 0 < (norm t).or) {f : Edge} (h : f ∈ undir C) :
    newEdge f.1 f.2 = f ∧ f.1 ≠ f.2 := by
  unfold undir at h
  rw [List.mem_flatMap] at h
  obtain ⟨t, ht, hm⟩ := h
  have ho := (norm_or t).mp (hC t ht)
  have key : ∀ u v : Pt, u ≠ v → f = newEdge u v → newEdge f.1 f.2 = f ∧ f.1 ≠ f.2 := by
    rintro u v huv rfl
    refine ⟨newEdge_sorted u v, ?_⟩
    rcases newEdge_cases u v with k | k <;> rw [k]
    · exact huv
    · exact huv.symm
  simp only [List.mem_cons, List.not_mem_nil, or_false] at hm
  rcases hm with hm | hm | hm
  · exact key _ _ (by intro e; apply ho; rw [e]; simp) hm
  · exact key _ _ (by intro e; apply ho; rw [e]; simp) hm
  · exact key _ _ (by intro e; apply ho; rw [e]; simp) hm

open Classical in
/-- The direction in which the cavity traverses an edge. -/
noncomputable def dirE (E : List (P2 × P2)) (e : Edge) : P2 × P2 := if toE e ∈ E then toE e else swE (toE e)

theorem boundary_ref {C : List Tri} (hC : ∀ t ∈ C, 0 < (norm t).or) (hn : (edgesOf (C.map norm)).Nodup) :
    Boundary (C.map norm) ((C.foldl addTriEdges []).map (dirE (edgesOf (C.map norm)))) := by
  obtain ⟨bn, bm⟩ := boundary_list C
  set B := C.foldl addTriEdges [] with hB
  set E := edgesOf (C.map norm) with hE
  have hsort : ∀ f ∈ B, newEdge f.1 f.2 = f ∧ f.1 ≠ f.2 := by
    intro f hf
    refine mem_undir hC ?_
    rw [← List.count_pos_iff]
    have := (bm f).mp hf
    omega
  have cle : ∀ F, E.count F ≤ 1 := fun F => List.nodup_iff_count_le_one.mp hn F
  have cmem : ∀ F, E.count F = 1 ↔ F ∈ E := by
    intro F
    constructor
    · intro h; rw [← List.count_pos_iff]; omega
    · intro h; have := List.count_pos_iff.mpr h; have := cle F; omega
  have hex : ∀ f, newEdge f.1 f.2 = f → f.1 ≠ f.2 →
      (f ∈ B ↔ (toE f ∈ E ∧ swE (toE f) ∉ E) ∨ (toE f ∉ E ∧ swE (toE f) ∈ E)) := by
    intro f h1 h2
    rw [bm, count_undir C h1 h2, ← hE, ← cmem, ← cmem]
    have a := cle (toE f)
    have b := cle (swE (toE f))
    omega
  refine ⟨?_, ?_⟩
  · refine (List.nodup_map_iff_inj_on bn).mpr ?_
    intro f hf f' hf' he
    obtain ⟨s1, _⟩ := hsort f hf
    obtain ⟨s2, _⟩ := hsort f' hf'
    have : toE f = toE f' ∨ toE f = swE (toE f') := by
      unfold dirE at he
      split at he <;> split at he
      · exact Or.inl he
      · exact Or.inr he
      · right; rw [← he]; rfl
      · left
        have := congrArg swE he
        exact this
    rcases this with h | h
    · exact toE_inj h
    · have h' : f = (f'.2, f'.1) := toE_inj (f := (f'.2, f'.1)) h
      rw [← s1, ← s2, h', newEdge_comm]
  · intro u v
    rw [List.mem_map]
    constructor
    · rintro ⟨f, hf, he⟩
      obtain ⟨s1, s2⟩ := hsort f hf
      rcases (hex f s1 s2).mp hf with ⟨k1, k2⟩ | ⟨k1, k2⟩
      · unfold dirE at he
        rw [if_pos k1] at he
        rw [he] at k1 k2
        exact ⟨k1, k2⟩
      · unfold dirE at he
        rw [if_neg k1] at he
        refine ⟨he ▸ k2, ?_⟩
        have : (v, u) = toE f := by
          have := congrArg swE he
          exact this.symm
        rw [this]; exact k1
    · rintro ⟨k1, k2⟩
      obtain ⟨T, hT, he⟩ := mem_edgesOf.mp k1
      obtain ⟨t, ht, rfl⟩ := List.mem_map.mp hT
      have hv := T3.has_of_edge he
      obtain ⟨a, rfl⟩ : ∃ a, u = toP a := by
        rcases (norm_has t u).mp hv.1 with h | h | h
        · exact ⟨_, h⟩
        · exact ⟨_, h⟩
        · exact ⟨_, h⟩
      obtain ⟨b, rfl⟩ : ∃ a, v = toP a := by
        rcases (norm_has t v).mp hv.2 with h | h | h
        · exact ⟨_, h⟩
        · exact ⟨_, h⟩
        · exact ⟨_, h⟩
      have hab : a ≠ b := by
        rintro rfl
        obtain ⟨w, hw⟩ := ((norm t).mem_edges_iff _ _).mp he
        have := hC t ht
        rw [hw.or_eq] at this
        simp at this
      have hs := newEdge_sorted a b
      rcases newEdge_cases a b with k | k
      · refine ⟨(a, b), ?_, ?_⟩
        · rw [k] at hs
          exact (hex (a, b) hs hab).mpr (Or.inl ⟨k1, k2⟩)
        · unfold dirE; rw [if_pos (by exact k1)]; rfl
      · refine ⟨(b, a), ?_, ?_⟩
        · rw [k] at hs
          exact (hex (b, a) hs hab.symm).mpr (Or.inr ⟨k2, k1⟩)
        · unfold dirE; rw [if_neg (by exact k2)]; rfl

/-! ### Connecting the boundary -/

theorem gTest {w h : Nat} (k : SizeOk w h) {e : Edge} {p : Pt} (h1 : Ok w h e.1) (h2 : Ok w h e.2)
    (hp : InImg w h p) :
    ((w64 (w16 (e.2.x - e.1.x) * w16 (p.y - e.2.y) - w16 (e.2.y - e.1.y) * w16 (p.x - e.2.x)) : Int) : ℚ) =
      ori (toP e.1) (toP e.2) (toP p) := by
  have hs := side_bounds k
  have := k.w1; have := k.h1; have := k.w2; have := k.h2
  have bx : |e.2.x - e.1.x| ≤ 32764 ∧ |e.2.y - e.1.y| ≤ 32764 := by
    have b : ∀ q, Ok w h q → ((w + 1) / 2 : Nat) - 2 * (side w h : Int) ≤ q.x ∧
        q.x ≤ ((w + 1) / 2 : Nat) + 2 * (side w h : Int) ∧ ((h + 1) / 2 : Nat) - 2 * (side w h : Int) ≤ q.y ∧
        q.y ≤ ((h + 1) / 2 : Nat) + 2 * (side w h : Int) := by
      rintro q (hq | hq)
      · obtain ⟨a, b, c, d⟩ := hq; omega
      · rcases super_verts k hq with ⟨e1, e2⟩ | ⟨e1, e2⟩ | ⟨e1, e2⟩ <;> omega
    have b1 := b _ h1
    have b2 := b _ h2
    exact ⟨abs_le.mpr ⟨by omega, by omega⟩, abs_le.mpr ⟨by omega, by omega⟩⟩
  have c2 := h2.close k hp
  have bx1 := abs_le.mp bx.1
  have bx2 := abs_le.mp bx.2
  have cx := abs_le.mp c2.x
  have cy := abs_le.mp c2.y
  rw [w16_id (by omega) (by omega), w16_id (by omega) (by omega), w16_id (by omega) (by omega),
    w16_id (by omega) (by omega)]
  have cy' : |p.y - e.2.y| ≤ 24573 := by rw [abs_sub_comm]; exact c2.y
  have cx' : |p.x - e.2.x| ≤ 24573 := by rw [abs_sub_comm]; exact c2.x
  have hb := abs_le.mp (abs_sub_le' (abs_mul_le' bx.1 cy') (abs_mul_le' bx.2 cx'))
  rw [w64_id (by omega) (by omega)]
  unfold ori toP
  push_cast
  ring

/-- The triangle built on a boundary edge. -/
def onEdge (p : Pt) (e : Edge) : Tri := ⟨e.1, e.2, p⟩

theorem fillEdges_spec {g : Geo} {w h : Nat} (k : SizeOk w h) {p : Pt} (hp : InImg w h p) :
    ∀ (es : List Edge) (d : D), SInv g d →
      (∀ e ∈ es, Ok w h e.1 ∧ Ok w h e.2 ∧ ori (toP e.1) (toP e.2) (toP p) ≠ 0) →
      (live d).length + es.length ≤ 65536 →
      ∃ d', fillEdges g p d es = some d' ∧ SInv g d' ∧ (live d').Perm (live d ++ es.map (onEdge p)) ∧
        d'.tris.length = max d.tris.length (live d').length ∧
        d'.pm = d.pm ∧ d'.sup = d.sup ∧ d'.numPoints = d.numPoints ∧ d'.unique = d.unique := by
  intro es
  induction es with
  | nil =>
    intro d S _ _
    refine ⟨d, rfl, S, by simp, ?_, rfl, rfl, rfl, rfl⟩
    have := slots_len S
    omega
  | cons e es ih =>
    intro d S he hl
    obtain ⟨h1, h2, h3⟩ := he e (by simp)
    have hG := gTest k h1 h2 hp
    rw [fillEdges]
    have hG0 : w64 (w16 (e.2.x - e.1.x) * w16 (p.y - e.2.y) - w16 (e.2.y - e.1.y) * w16 (p.x - e.2.x)) ≠ 0 := by
      intro h0
      rw [h0] at hG
      exact h3 (by rw [← hG]; simp)
    rw [if_pos hG0]
    have hfr : (onEdge p e).freed = false := by
      have := h1.marker k
      simpa [Tri.freed, onEdge] using this
    simp only [List.length_cons] at hl
    obtain ⟨d1, a1, a2, a3, a4, a5, a6, a7, a8⟩ := addTriangle_spec S hfr (by omega)
    have hlen := a3.length_eq
    simp only [List.length_cons] at hlen
    obtain ⟨d2, b1, b2, b3, b4, b5, b6, b7, b8⟩ := ih d1 a2 (fun e' h' => he e' (by simp [h'])) (by omega)
    refine ⟨d2, ?_, b2, ?_, ?_, by rw [b5, a5], by rw [b6, a6], by rw [b7, a7], by rw [b8, a8]⟩
    · change (addTriangle g d (onEdge p e)).bind _ = _
      rw [a1]; exact b1
    · refine b3.trans ((a3.append_right _).trans ?_)
      rw [List.map_cons, List.cons_append]
      exact List.perm_middle.symm
    · have hl2 := b3.length_eq
      rw [List.length_append] at hl2
      rw [b4, a4, hlen]
      omega

/-! ### Counting -/

theorem VS_list (s : Multiset Pt) (x : P2) : VS s x ↔ x ∈ s.dedup.toList.map toP := by
  unfold VS
  rw [List.mem_map]
  constructor
  · rintro ⟨p, hp, rfl⟩
    exact ⟨p, by simpa using hp, rfl⟩
  · rintro ⟨p, hp, rfl⟩
    exact ⟨p, by simpa using hp, rfl⟩

theorem count_live {w h : Nat} {s : Multiset Pt} {L : List T3}
    (I : Inv (norm (newSuperTriangle w h)) (VS s) L) : L.length = 2 * s.dedup.card + 1 := by
  have hn : (s.dedup.toList.map toP).Nodup := by
    refine List.Nodup.map (fun a b h => toP_inj h) ?_
    rw [← Multiset.coe_nodup, Multiset.coe_toList]
    exact Multiset.nodup_dedup s
  have := count_tris _ hn I (VS_list s)
  simpa using this

theorem onEdge_rep {p : Pt} {e : Edge} {E : List (P2 × P2)} (h : 0 < ori (dirE E e).1 (dirE E e).2 (toP p)) :
    (norm (onEdge p e)).Rep (dirE E e).1 (dirE E e).2 (toP p) ∧ ori (toP e.1) (toP e.2) (toP p) ≠ 0 := by
  unfold dirE at h ⊢
  unfold norm onEdge
  by_cases hm : toE e ∈ E
  · rw [if_pos hm] at h ⊢
    unfold toE at h ⊢
    simp only at h ⊢
    rw [if_pos h]
    exact ⟨Or.inl rfl, h.ne'⟩
  · rw [if_neg hm] at h ⊢
    unfold swE toE at h ⊢
    simp only at h ⊢
    rw [ori_swap] at h
    rw [if_neg (by linarith)]
    exact ⟨Or.inl rfl, by intro h0; rw [h0] at h; simp at h⟩

/-- `d'` arises from `d` by replacing the triangles with `q` by triangles on their vertices and `p`. -/
def Replaces (q : Tri → Bool) (p : Pt) (d d' : D) : Prop :=
  ∃ C R N, (live d).Perm (C ++ R) ∧ (live d').Perm (R ++ N) ∧ (∀ t ∈ C, q t = true) ∧ (∀ t ∈ R, q t = false) ∧
    ∀ t ∈ N, ∀ v, t.hasVertex v = true → v = p ∨ ∃ u ∈ C, u.hasVertex v = true

/-- **Insert** never panics, keeps the invariant and adds one copy of the point. -/
theorem insert_full {g : Geo} {w h : Nat} {Q : Pt → Prop} (k : SizeOk w h) (G : GeoOK g w h Q) {d : D} {s : Multiset Pt}
    (I : DInv g w h d s) {p : Pt} (hp : InImg w h p) (hQ : Q p) (hc : s.count p < 65535)
    (hd : (p ::ₘ s).dedup.card ≤ 32767) :
    ∃ d', insert g d p = some d' ∧ DInv g w h d' (p ::ₘ s) ∧
      d'.tris.length = max d.tris.length (live d').length ∧ Replaces (inTest p) p d d' := by
  have hh := hp.hashable k
  obtain ⟨pm', p1, p2, p3, p4⟩ := pmAdd_spec I.pm (p := p) ⟨⟨hh.1, hh.2.1, hh.2.2.1, hh.2.2.2.1⟩, hh.2.2.2.2⟩
    (by omega)
  obtain ⟨c, hcell⟩ := G.cell p hp
  set d0 : D := { d with pm := pm', unique := if s.count p + 1 = 1 then d.unique + 1 else d.unique,
                         numPoints := d.numPoints + 1 } with hd0
  have S0 : SInv g d0 := ⟨I.slots.free_nodup, I.slots.free_iff, I.slots.cell_nodup, I.slots.cell_iff⟩
  have hl0 : live d0 = live d := rfl
  obtain ⟨d1, C, r1, S1, hperm, hq, hrest, r2, r3, r4, r5, r6⟩ :=
    removeLoop_spec (g := g) true (inTest p) c.1 c.2 (d0.cells c.1 c.2).length [] (d0.cells c.1 c.2) d0 []
      S0 (by simp) rfl (by simp)
  rw [hl0] at hperm
  have I0 := I.inv
  have okv : ∀ t ∈ live d, Ok w h t.a ∧ Ok w h t.b ∧ Ok w h t.c := fun t ht =>
    ⟨verts_ok I.img I0 ht (Or.inl rfl), verts_ok I.img I0 ht (Or.inr (Or.inl rfl)),
      verts_ok I.img I0 ht (Or.inr (Or.inr rfl))⟩
  have or0 : ∀ t ∈ live d, 0 < (norm t).or := fun t ht => I0.ccw _ (List.mem_map_of_mem ht)
  have mC : ∀ t ∈ C, t ∈ live d := fun t ht => hperm.mem_iff.mpr (List.mem_append_left _ ht)
  have mR : ∀ t ∈ live d1, t ∈ live d := fun t ht => hperm.mem_iff.mpr (List.mem_append_right _ ht)
  have hT : ((live d).map norm).Perm (C.map norm ++ (live d1).map norm) := by
    rw [← List.map_append]; exact hperm.map norm
  have hCp : ∀ t ∈ C.map norm, t.pow (toP p) ≤ 0 := by
    intro t ht
    obtain ⟨u, hu, rfl⟩ := List.mem_map.mp ht
    have ok := okv u (mC u hu)
    exact (inTest_ok k ok.1 ok.2.1 ok.2.2 hp (or0 u (mC u hu))).mp (hq u hu)
  have hRp : ∀ t ∈ (live d1).map norm, 0 < t.pow (toP p) := by
    intro t ht
    obtain ⟨u, hu, rfl⟩ := List.mem_map.mp ht
    have ok := okv u (mR u hu)
    by_contra hn
    have hle := not_lt.mp hn
    have hcov := G.cover u.a u.b u.c p c ok.1 ok.2.1 ok.2.2 hp hQ (or0 u (mR u hu))
      (fun v hv => I0.del _ (List.mem_map_of_mem (mR u hu)) v (Or.inr hv)) hle hcell
    have := hrest u hu hcov
    rw [(inTest_ok k ok.1 ok.2.1 ok.2.2 hp (or0 u (mR u hu))).mpr hle] at this
    cases this
  have hnC : (edgesOf (C.map norm)).Nodup := by
    have h1 := (edgesOf_perm hT).nodup_iff.mp I0.edges_nodup
    rw [edgesOf, List.flatMap_append] at h1
    exact (List.nodup_append.mp h1).1
  have hB := boundary_ref (C := C) (fun t ht => or0 t (mC t ht)) hnC
  set Bl := C.foldl addTriEdges [] with hBl
  set E := edgesOf (C.map norm) with hE
  have hin := img_inside k hp
  have hpos : ∀ e ∈ Bl, 0 < ori (dirE E e).1 (dirE E e).2 (toP p) := by
    intro e he
    exact (boundary_edge I0 hT hin hCp hRp hB (u := (dirE E e).1) (v := (dirE E e).2)
      (List.mem_map_of_mem he)).1
  have hN : NewTris (toP p) (Bl.map (dirE E)) ((Bl.map (onEdge p)).map norm) := by
    unfold NewTris
    clear_value Bl
    clear hB hBl
    induction Bl with
    | nil => exact List.Forall₂.nil
    | cons e Bl ih =>
      exact List.Forall₂.cons (onEdge_rep (hpos e (by simp))).1 (ih (fun e' h' => hpos e' (by simp [h'])))
  have Inew := insert_inv I0 hT hin hCp hRp hB hN
  have Inew' : Inv (norm (newSuperTriangle w h)) (VS (p ::ₘ s)) ((live d1 ++ Bl.map (onEdge p)).map norm) := by
    rw [List.map_append]
    refine Inv_congr Inew ?_
    intro x
    unfold VS
    constructor
    · rintro (⟨q, hq, rfl⟩ | rfl)
      · exact ⟨q, by simp [hq], rfl⟩
      · exact ⟨p, by simp, rfl⟩
    · rintro ⟨q, hq, rfl⟩
      rcases Multiset.mem_cons.mp hq with rfl | hq
      · exact Or.inr rfl
      · exact Or.inl ⟨q, hq, rfl⟩
  have hcount := count_live Inew'
  rw [List.length_map, List.length_append, List.length_map] at hcount
  have hends : ∀ e ∈ Bl, ∃ t ∈ C, (norm t).Has (toP e.1) ∧ (norm t).Has (toP e.2) := by
    intro e he
    have hed := ((hB.2 (dirE E e).1 (dirE E e).2).mp (List.mem_map_of_mem he)).1
    obtain ⟨T, hTm, hed'⟩ := mem_edgesOf.mp hed
    obtain ⟨t, ht, rfl⟩ := List.mem_map.mp hTm
    have hv := T3.has_of_edge hed'
    have hd12 : (dirE E e = (toP e.1, toP e.2)) ∨ (dirE E e = (toP e.2, toP e.1)) := by
      unfold dirE; split
      · exact Or.inl rfl
      · exact Or.inr rfl
    rcases hd12 with h' | h' <;> rw [h'] at hv
    · exact ⟨t, ht, hv⟩
    · exact ⟨t, ht, hv.symm⟩
  have hedge : ∀ e ∈ Bl, Ok w h e.1 ∧ Ok w h e.2 ∧ ori (toP e.1) (toP e.2) (toP p) ≠ 0 := by
    intro e he
    have hed := ((hB.2 (dirE E e).1 (dirE E e).2).mp (List.mem_map_of_mem he)).1
    obtain ⟨T, hTm, hed'⟩ := mem_edgesOf.mp hed
    obtain ⟨t, ht, rfl⟩ := List.mem_map.mp hTm
    have hv := T3.has_of_edge hed'
    have ok := okv t (mC t ht)
    have hok : ∀ q : Pt, (norm t).Has (toP q) → Ok w h q := by
      intro q hq
      rcases (norm_has t _).mp hq with h' | h' | h'
      · rw [toP_inj h']; exact ok.1
      · rw [toP_inj h']; exact ok.2.1
      · rw [toP_inj h']; exact ok.2.2
    have hd12 : (dirE E e = (toP e.1, toP e.2)) ∨ (dirE E e = (toP e.2, toP e.1)) := by
      unfold dirE; split
      · exact Or.inl rfl
      · exact Or.inr rfl
    refine ⟨?_, ?_, (onEdge_rep (hpos e he)).2⟩
    · rcases hd12 with h' | h' <;> rw [h'] at hv
      · exact hok _ hv.1
      · exact hok _ hv.2
    · rcases hd12 with h' | h' <;> rw [h'] at hv
      · exact hok _ hv.2
      · exact hok _ hv.1
  obtain ⟨d2, f1, f2, f3, f4, f5, f6, f7, f8⟩ := fillEdges_spec k hp Bl d1 S1 hedge (by omega)
  refine ⟨d2, ?_, ⟨f2, by rw [f6, r4, ← I.sup], Inv_perm Inew' (f3.map norm).symm, ?_, ?_, ?_, ?_, ?_⟩, by rw [f4, r2],
    C, live d1, Bl.map (onEdge p), hperm, f3, hq, ?_, ?_⟩
  · unfold insert
    simp only [p1, Option.bind_eq_bind, Option.bind_some, hcell]
    have : removeLoop g true (inTest p) c.1 c.2 (d0.cells c.1 c.2).length 0 d0 [] = some (d1, C) := by
      simpa using r1
    rw [show ({ d with pm := pm', unique := if s.count p + 1 = 1 then d.unique + 1 else d.unique,
                       numPoints := d.numPoints + 1 } : D) = d0 from rfl, this]
    simp only [Option.bind_some]
    exact f1
  · intro q hq
    rcases Multiset.mem_cons.mp hq with rfl | hq
    · exact hp
    · exact I.img q hq
  · rw [f5, r3]
    have : (fun q => (p ::ₘ s).count q) = Function.update (fun q => s.count q) p (s.count p + 1) := by
      funext q
      by_cases hq : q = p
      · subst hq; simp
      · rw [Function.update_of_ne hq, Multiset.count_cons_of_ne hq]
    rw [this]; exact p2
  · rw [f7, r5, hd0]; simp only; rw [I.np]; simp
  · rw [f5, r3]; simp only [hd0]; rw [p3, I.pmn]; simp
  · rw [f8, r6, hd0]
    simp only
    rw [I.uq]
    by_cases hm : p ∈ s
    · have : 0 < s.count p := Multiset.count_pos.mpr hm
      rw [if_neg (by omega), Multiset.dedup_cons_of_mem hm]
    · have : s.count p = 0 := Multiset.count_eq_zero.mpr hm
      rw [if_pos (by omega), Multiset.dedup_cons_of_notMem hm]
      simp
  · intro u hu
    have ok := okv u (mR u hu)
    rw [Bool.eq_false_iff]
    intro h'
    exact absurd ((inTest_ok k ok.1 ok.2.1 ok.2.2 hp (or0 u (mR u hu))).mp h')
      (not_le.mpr (hRp _ (List.mem_map_of_mem hu)))
  · intro t ht v hv
    obtain ⟨e, he, rfl⟩ := List.mem_map.mp ht
    obtain ⟨u, hu, h1, h2⟩ := hends e he
    rw [hasVertex_iff, norm_has] at hv
    rcases hv with hv | hv | hv
    · exact Or.inr ⟨u, hu, (hasVertex_iff u v).mpr (by rw [hv]; exact h1)⟩
    · exact Or.inr ⟨u, hu, (hasVertex_iff u v).mpr (by rw [hv]; exact h2)⟩
    · exact Or.inl (toP_inj hv)

@[inherit_doc insert_full]
theorem insert_spec {g : Geo} {w h : Nat} {Q : Pt → Prop} (k : SizeOk w h) (G : GeoOK g w h Q) {d : D} {s : Multiset Pt}
    (I : DInv g w h d s) {p : Pt} (hp : InImg w h p) (hQ : Q p) (hc : s.count p < 65535)
    (hd : (p ::ₘ s).dedup.card ≤ 32767) :
    ∃ d', insert g d p = some d' ∧ DInv g w h d' (p ::ₘ s) ∧
      d'.tris.length = max d.tris.length (live d').length :=
  let ⟨d', a, b, c, _⟩ := insert_full k G I hp hQ hc hd
  ⟨d', a, b, c⟩

end Verif.Incr

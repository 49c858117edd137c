import Verif.Props.Order
import Verif.Props.Export
import Verif.Props.Default
import Mathlib.Logic.Relation
import Mathlib.Data.List.Pairwise

/-!
# The exported picture and the reported fitness (C96)

The algorithm evaluates its own triangulation of the points, the program exports the triangles of the Delaunay library with colours found by another routine.  Here
the two are put together: what the algorithm reports as its best fitness is the quality of the picture that is exported for its best points.
-/

namespace Verif.Props

open Verif.Tri Verif.Spec Verif.Float Verif.Raster Verif.Fit Verif.Small Verif.Alg
open Verif.Incr hiding trunc step run Entry

/-- The quality of a picture made of triangles with colours: the share of the image in the triangles minus the squared error per channel and pixel. -/
noncomputable def quality (z : ℚ) (I : Img) (T : List Tri) (cs : List RGB) : ℚ :=
  (T.map area).sum / (I.w * I.h) - pictureErr I (fun t q => q ∈ DDATriangle (rne 53) z t) (T.zip cs) / (3 * (I.w * I.h))

/-- A Delaunay library that reports no triangle twice. -/
structure LibOnce (lib : List Pt → List Nat) : Prop extends LibDelaunay lib where
  once : ∀ (l : List Pt) (i j a b c a' b' c' : Nat) (t t' : Tri), nthTriple (lib l) i = some (a, b, c) → nthTriple (lib l) j = some (a', b', c') →
    l[a]? = some t.a → l[b]? = some t.b → l[c]? = some t.c → l[a']? = some t'.a → l[b']? = some t'.b → l[c']? = some t'.c → verts t = verts t' → i = j

/-- Points in general position: no coordinate is the largest double below 1/2, and no four of the pixel points and the vertices of the bounding triangle are on a circle. -/
structure Regular (I : Img) (ps : List NP) : Prop where
  off : ∀ p ∈ ps, rne 53 (p.x * I.w) ≠ 1 / 2 - 1 / 2 ^ 54 ∧ rne 53 (p.y * I.h) ≠ 1 / 2 - 1 / 2 ^ 54
  general : GeneralPosition (fun v => v ∈ pix (rne 53) I ps ∨ IsVertex (newSuperTriangle I.w I.h) v)

/-- The points for which the exported triangles are the evaluated ones: they are in general position, and the circles of the Delaunay triangles of the pixel points have no
vertex of the bounding triangle inside. -/
structure Clear (I : Img) (ps : List NP) : Prop extends Regular I ps where
  hull : ∀ t : Tri, (∀ v, IsVertex t v → v ∈ pix (rne 53) I ps) → NonDegenerate t → (∀ v ∈ pix (rne 53) I ps, ¬ InsideCircle t v) →
    ∀ v, IsVertex (newSuperTriangle I.w I.h) v → ¬ InsideCircle t v

/-- A list of triangles with the triangles of a mesh, in any order and with their vertices in any order, is a mesh. -/
theorem Mesh.perm {T T' : List Tri} {w h : Nat} (M : Mesh w h T) (nd : ∀ t ∈ T', NonDegenerate t) (P : (T'.map verts).Perm (T.map verts)) : Mesh w h T' := by
  have all : ∀ t ∈ T' ++ T, NonDegenerate t := fun t ht => (List.mem_append.mp ht).elim (nd t) (M.nondeg t)
  refine ⟨?_, nd, ?_, ?_⟩
  · intro t ht v hv
    obtain ⟨t', ht', e⟩ := List.mem_map.mp (P.subset (List.mem_map_of_mem ht))
    refine M.img t' ht' v ?_
    have h1 : v ∈ verts t := by
      rw [mem_verts]
      simpa [vlist, IsVertex] using hv
    rw [← e, mem_verts] at h1
    simpa [vlist, IsVertex] using h1
  · rw [(map_perm_of P fun t ht t' ht' hv => area_verts (all t ht) (all t' ht') hv).sum_eq]
    exact M.area
  · intro fl R z q
    unfold visits
    have : (T'.map fun t => (DDATriangle fl z t).count q).Perm (T.map fun t => (DDATriangle fl z t).count q) :=
      map_perm_of P fun t ht t' ht' hv => (c31_vertex_order (fl := fl) (fun a b => R.mono a b) z (vlist_perm (all t ht) (all t' ht') hv)).count_eq q
    rw [this.sum_eq]
    exact M.once fl R z q

theorem Mesh.sublist {T T' : List Tri} {w h : Nat} (M : Mesh w h T) (S : T'.Sublist T) : Mesh w h T' := by
  refine ⟨fun t ht => M.img t (S.subset ht), fun t ht => M.nondeg t (S.subset ht), le_trans ?_ M.area, fun fl R z q => le_trans ?_ (M.once fl R z q)⟩
  · refine List.Sublist.sum_le_sum (S.map Props.area) fun x hx => ?_
    obtain ⟨t, -, rfl⟩ := List.mem_map.mp hx
    unfold Props.area
    positivity
  · exact (S.map fun t => (DDATriangle fl z t).count q).sum_le_sum fun _ _ => Nat.zero_le _

/-- `Triangulate` returns no triangle twice. -/
theorem triangulate_nodup {lib : List Pt → List Nat} (L : LibOnce lib) {fl : ℚ → ℚ} {w h : Nat} {ps : List NP} {T : List Tri} (e : triangulate lib fl w h ps = some T) :
    (T.map verts).Nodup := by
  obtain ⟨T', e', -, hidx⟩ := c80_triangulate lib L.ok fl w h ps
  rw [e] at e'
  cases e'
  rw [List.nodup_iff_injective_getElem]
  rintro ⟨i, hi⟩ ⟨j, hj⟩ hij
  simp only [List.length_map] at hi hj
  simp only [List.getElem_map] at hij
  obtain ⟨a, b, c, p, q, r, i1, i2, i3, i4, i5⟩ := hidx i _ (List.getElem?_eq_getElem hi)
  obtain ⟨a', b', c', p', q', r', j1, j2, j3, j4, j5⟩ := hidx j _ (List.getElem?_eq_getElem hj)
  have get : ∀ {x : Nat} {y : NP}, ps[x]? = some y → (ps.map (groupPoint fl w h))[x]? = some (groupPoint fl w h y) := by
    intro x y hx
    rw [List.getElem?_map, hx]
    rfl
  have := L.once _ i j a b c a' b' c' T[i] T[j] i1 j1 (by rw [i5]; exact get i2) (by rw [i5]; exact get i3) (by rw [i5]; exact get i4)
    (by rw [j5]; exact get j2) (by rw [j5]; exact get j3) (by rw [j5]; exact get j4) hij
  simp [this]

section
variable {w h : Nat} {f : Nat → Nat → Fin 256 × Fin 256 × Fin 256} {g : Geo} {lib : List Pt → List Nat} {ps : List NP} {ops : List Op} {m : Nat} {d : D} {z : ℚ} {bs N : Nat}
  {bf : D → D → Bufs}

/-- **C96**, the triangles (partial: for points in general position, under `Arith`): `Triangulate` returns the triangles that are evaluated, and further triangles with a vertex
of the bounding triangle in their circle. -/
theorem c96_triangles_partial (L : LibOnce lib) (A : Arith g (rne 53) w h ops) (hu : ∀ p ∈ ps, Alg.Unit01 p) (C : Regular (ofBytes (rne 53) w h f) ps)
    (H : Hist w h ops ↑(pix (rne 53) (ofBytes (rne 53) w h f) ps) m) (e : exec g (rne 53) w h ops = some d) :
    ∃ T, triangulate lib (rne 53) w h ps = some T ∧ (T.map verts).Nodup ∧ ((iterTriangles d).map verts).Nodup ∧ (∀ t ∈ T, NonDegenerate t) ∧
      (∀ t ∈ T, (∀ v, IsVertex t v → v ∈ pix (rne 53) (ofBytes (rne 53) w h f) ps) ∧ ∀ v ∈ pix (rne 53) (ofBytes (rne 53) w h f) ps, ¬ InsideCircle t v) ∧
      (∀ t ∈ iterTriangles d, ∃ t' ∈ T, verts t' = verts t) ∧
      ∀ t ∈ T, (∃ t' ∈ iterTriangles d, verts t' = verts t) ∨ ∃ v, IsVertex (newSuperTriangle w h) v ∧ InsideCircle t v := by
  have R : Rnd 53 (rne 53) := rne_rnd (by norm_num)
  have k := A.size
  obtain ⟨T, hT, -, -⟩ := c80_triangulate lib L.ok (rne 53) w h ps
  have same : pix (rne 53) (ofBytes (rne 53) w h f) ps = ps.map (groupPoint (rne 53) w h) := List.map_congr_left fun p hp' => by
    rw [← roundPoint_group R k (hu p hp')]
    exact (roundPoint_eq (F := ieee) R stores_ieee k (hu p hp') (C.off p hp').1 (C.off p hp').2).symm
  have rep := triangulate_reports L.ok hT
  have snd : ∀ t ∈ T, NonDegenerate t ∧ (∀ v ∈ pix (rne 53) (ofBytes (rne 53) w h f) ps, ¬ InsideCircle t v) := fun t ht => by
    rw [same]
    exact L.sound _ t ((rep t).mp ht)
  have ver : ∀ t ∈ T, ∀ v, IsVertex t v → v ∈ pix (rne 53) (ofBytes (rne 53) w h f) ps := by
    intro t ht v hv
    rw [same]
    obtain ⟨i, a, b, c, -, h1, h2, h3⟩ := (rep t).mp ht
    rcases hv with rfl | rfl | rfl
    exacts [List.mem_of_getElem? h1, List.mem_of_getElem? h2, List.mem_of_getElem? h3]
  have circ : ∀ (t : Tri) (o : P2), (∀ v, IsVertex t v → v ∈ pix (rne 53) (ofBytes (rne 53) w h f) ps) → NonDegenerate t → Centre t o →
      ∀ v, (v ∈ (ps.map fun p => createPoint (rne 53) p w h) ∨ IsVertex (newSuperTriangle w h) v) → d2 o v = d2 o t.a → IsVertex t v := by
    intro t o hv hn hc v hvv hd
    rcases C.general t.a t.b t.c v (Or.inl (hv _ (Or.inl rfl))) (Or.inl (hv _ (Or.inr (Or.inl rfl)))) (Or.inl (hv _ (Or.inr (Or.inr rfl)))) hvv ⟨o, hc, hd⟩ hn with h | h | h
    exacts [Or.inl h, Or.inr (Or.inl h), Or.inr (Or.inr h)]
  have I := (A.inv H e).1
  refine ⟨T, hT, triangulate_nodup L hT, ?_, fun t ht => (snd t ht).1, fun t ht => ⟨ver t ht, (snd t ht).2⟩, ?_, ?_⟩
  · rw [DInv.iter_live]
    exact I.verts_nodup.sublist (List.filter_sublist.map _)
  · intro t ht
    have hv : ∀ v, IsVertex t v → v ∈ pix (rne 53) (ofBytes (rne 53) w h f) ps := by
      obtain ⟨-, ha, hb, hc⟩ := (I.iter_iff k t).mp ht
      rintro v (rfl | rfl | rfl)
      exacts [ha, hb, hc]
    have hn := (mesh_of A H e).nondeg t ht
    obtain ⟨o, hc⟩ := centre_exists hn
    exact ((c80_evaluated_partial (F := ieee) L.toLibDelaunay A R stores_ieee hu C.off H e hT hn hc hv (circ t o hv hn hc)).mp ⟨t, ht, rfl⟩).1
  · intro t ht
    obtain ⟨o, hc⟩ := centre_exists (snd t ht).1
    by_cases hb : ∃ v, IsVertex (newSuperTriangle w h) v ∧ InsideCircle t v
    · exact Or.inr hb
    · refine Or.inl ((c80_evaluated_partial (F := ieee) L.toLibDelaunay A R stores_ieee hu C.off H e hT (snd t ht).1 hc (ver t ht)
        (circ t o (ver t ht) (snd t ht).1 hc)).mpr ⟨⟨t, ht, rfl⟩, fun v hv => ?_⟩)
      by_contra hlt
      exact hb ⟨v, hv, o, hc, not_le.mp hlt⟩

/-- **C96**, the triangles (partial: for points that are `Clear`, under `Arith`): `Triangulate` returns the triangles that are evaluated. -/
theorem c96_same_triangles_partial (L : LibOnce lib) (A : Arith g (rne 53) w h ops) (hu : ∀ p ∈ ps, Alg.Unit01 p) (C : Clear (ofBytes (rne 53) w h f) ps)
    (H : Hist w h ops ↑(pix (rne 53) (ofBytes (rne 53) w h f) ps) m) (e : exec g (rne 53) w h ops = some d) :
    ∃ T, triangulate lib (rne 53) w h ps = some T ∧ (T.map verts).Perm ((iterTriangles d).map verts) ∧ ∀ t ∈ T, NonDegenerate t := by
  obtain ⟨T, hT, n1, n2, nd, hp, h1, h2⟩ := c96_triangles_partial L A hu C.toRegular H e
  refine ⟨T, hT, (List.perm_ext_iff_of_nodup n1 n2).mpr fun S => ⟨fun hS => ?_, fun hS => ?_⟩, nd⟩
  · obtain ⟨t, ht, rfl⟩ := List.mem_map.mp hS
    rcases h2 t ht with ⟨t', a, b⟩ | ⟨v, a, b⟩
    · exact List.mem_map.mpr ⟨t', a, b⟩
    · exact absurd b (C.hull t (hp t ht).1 (nd t ht) (hp t ht).2 v a)
  · obtain ⟨t, ht, rfl⟩ := List.mem_map.mp hS
    obtain ⟨t', a, b⟩ := h1 t ht
    exact List.mem_map.mpr ⟨t', a, b⟩

/-- **C96**, from below (partial: for points in general position, under `Arith`, images of at most 6800000 pixels, if the exported triangles visit no pixel twice): the picture that
is exported is at least as good as the fitness says, up to 1/90000, whether or not it has triangles that were not evaluated. -/
theorem c96_lower_partial (L : LibOnce lib) (A : Arith g (rne 53) w h ops) (hwh : w * h ≤ 6800000) (hb : 1 ≤ bs) (hb' : bs ≤ 16) (hu : ∀ p ∈ ps, Alg.Unit01 p)
    (C : Regular (ofBytes (rne 53) w h f) ps) (H : Hist w h ops ↑(pix (rne 53) (ofBytes (rne 53) w h f) ps) m) (e : exec g (rne 53) w h ops = some d)
    {T : List Tri} (hT : triangulate lib (rne 53) w h ps = some T) (M : Mesh w h T)
    {v : ℚ} (ev : evalTris (rne 53) z (ofBytes (rne 53) w h f) bs (iterTriangles d) = some v) :
    ∃ out cs, trianglesOnImage (rne 53) z (ofBytes (rne 53) w h f) T = some out ∧ out.map Prod.snd = cs.map some ∧
      v ≤ quality z (ofBytes (rne 53) w h f) T cs + 1 / 90000 := by
  classical
  have R : Rnd 53 (rne 53) := rne_rnd (by norm_num)
  have k := A.size
  have hw : w ≤ 32767 := k.w2.trans (by norm_num)
  have hh : h ≤ 32767 := k.h2.trans (by norm_num)
  obtain ⟨T', hT', n1, n2, nd, -, h1, -⟩ := c96_triangles_partial (f := f) L A hu C H e
  rw [hT] at hT'
  cases hT'
  have Mi := mesh_of A H e
  let E := T.filter fun t => verts t ∈ (iterTriangles d).map verts
  let X := T.filter fun t => !decide (verts t ∈ (iterTriangles d).map verts)
  have split : (E ++ X).Perm T := List.filter_append_perm _ T
  have P : (E.map verts).Perm ((iterTriangles d).map verts) := by
    refine (List.perm_ext_iff_of_nodup (n1.sublist (List.filter_sublist.map _)) n2).mpr fun S => ⟨fun hS => ?_, fun hS => ?_⟩
    · obtain ⟨t, ht, rfl⟩ := List.mem_map.mp hS
      simpa [E] using (List.mem_filter.mp ht).2
    · obtain ⟨t, ht, rfl⟩ := List.mem_map.mp hS
      obtain ⟨t', a, b⟩ := h1 t ht
      exact List.mem_map.mpr ⟨t', List.mem_filter.mpr ⟨a, by rw [b]; simpa using List.mem_map_of_mem (f := verts) ht⟩, b⟩
  have MX : Mesh w h X := M.sublist List.filter_sublist
  obtain ⟨out, cs, vT, o1, o2, o3, o4, -⟩ := c87_ieee z f hb hb' k.w1 k.h1 hw hh hwh M
  obtain ⟨vT', a1, a2⟩ := eval_sum z f hb hb' k.w1 k.h1 hw hh hwh M
  obtain ⟨vi, b1, b2⟩ := eval_sum z f hb hb' k.w1 k.h1 hw hh hwh Mi
  obtain ⟨vX, c1, c2⟩ := eval_sum z f hb hb' k.w1 k.h1 hw hh hwh MX
  obtain ⟨vX', d1, d2⟩ := c73_lower_partial z f hb hb' k.w1 k.h1 hw hh hwh MX
  rw [o3] at a1
  rw [ev] at b1
  rw [c1] at d1
  cases a1
  cases b1
  cases d1
  have all : ∀ t ∈ E ++ iterTriangles d, NonDegenerate t := fun t ht =>
    (List.mem_append.mp ht).elim (fun h => nd t (List.mem_filter.mp h).1) (Mi.nondeg t)
  have pos : 0 ≤ (X.map area).sum := List.sum_nonneg fun x hx => by
    obtain ⟨t, ht, rfl⟩ := List.mem_map.mp hx
    unfold area
    positivity
  have w0 : (0 : ℚ) < w := by exact_mod_cast k.w1
  have h0 : (0 : ℚ) < h := by exact_mod_cast k.h1
  have dX : 0 ≤ vX := le_trans (by positivity) d2
  have sA : (T.map area).sum = ((iterTriangles d).map area).sum + (X.map area).sum := by
    rw [← (split.map area).sum_eq, List.map_append, List.sum_append,
      (map_perm_of P fun t ht t' ht' hv => area_verts (all t ht) (all t' ht') hv).sum_eq]
  let V : Tri → ℚ := fun t => sumsDiff (rne 53) (sumsOf (triPixels (rne 53) z (ofBytes (rne 53) w h f) t))
  have sV : (T.map V).sum = ((iterTriangles d).map V).sum + (X.map V).sum := by
    rw [← (split.map V).sum_eq, List.map_append, List.sum_append,
      (map_perm_of P fun t ht t' ht' hv => piece_verts R z (all t ht) (all t' ht') hv : (E.map V).Perm _).sum_eq]
  change |_ - (_ - (T.map V).sum / _)| ≤ _ at a2
  change |_ - (_ - ((iterTriangles d).map V).sum / _)| ≤ _ at b2
  change |_ - (_ - (X.map V).sum / _)| ≤ _ at c2
  rw [sA, sV, add_div, add_div] at a2
  refine ⟨out, cs, o1, o2, ?_⟩
  have q : quality z (ofBytes (rne 53) w h f) T cs = (T.map area).sum / (w * h) -
    pictureErr (ofBytes (rne 53) w h f) (fun t q => q ∈ DDATriangle (rne 53) z t) (T.zip cs) / (3 * (w * h)) := rfl
  rw [← q] at o4
  generalize quality z (ofBytes (rne 53) w h f) T cs = Q at *
  have e1 := abs_le.mp o4
  have e2 := abs_le.mp a2
  have e3 := abs_le.mp b2
  have e4 := abs_le.mp c2
  norm_num at e1 e2 e3 e4 ⊢
  linarith

/-- **C96**, one group of points (partial: for points that are `Clear`, under `Arith`, images of at most 6800000 pixels): the fitness is the quality of the picture that is
exported for the same points, up to 1/90000. -/
theorem c96_picture_partial (L : LibOnce lib) (A : Arith g (rne 53) w h ops) (hwh : w * h ≤ 6800000) (hb : 1 ≤ bs) (hb' : bs ≤ 16) (hu : ∀ p ∈ ps, Alg.Unit01 p)
    (C : Clear (ofBytes (rne 53) w h f) ps) (H : Hist w h ops ↑(pix (rne 53) (ofBytes (rne 53) w h f) ps) m) (e : exec g (rne 53) w h ops = some d)
    {v : ℚ} (ev : evalTris (rne 53) z (ofBytes (rne 53) w h f) bs (iterTriangles d) = some v) :
    ∃ T out cs, triangulate lib (rne 53) w h ps = some T ∧ trianglesOnImage (rne 53) z (ofBytes (rne 53) w h f) T = some out ∧ out.map Prod.snd = cs.map some ∧
      |v - quality z (ofBytes (rne 53) w h f) T cs| ≤ 1 / 90000 := by
  have k := A.size
  have hw : w ≤ 32767 := k.w2.trans (by norm_num)
  have hh : h ≤ 32767 := k.h2.trans (by norm_num)
  obtain ⟨T, hT, P, nd⟩ := c96_same_triangles_partial (f := f) L A hu C H e
  have M := mesh_of A H e
  have M' := M.perm nd P
  obtain ⟨out, cs, v1, o1, o2, o3, o4, -⟩ := c87_ieee z f hb hb' k.w1 k.h1 hw hh hwh M'
  obtain ⟨v2, v3, e2, e3, b⟩ := eval_perm z f hb hb' k.w1 k.h1 hw hh hwh M' M P
  rw [o3] at e2
  rw [ev] at e3
  cases e2
  cases e3
  refine ⟨T, out, cs, hT, o1, o2, ?_⟩
  have q : quality z (ofBytes (rne 53) w h f) T cs = (T.map area).sum / (w * h) -
    pictureErr (ofBytes (rne 53) w h f) (fun t q => q ∈ DDATriangle (rne 53) z t) (T.zip cs) / (3 * (w * h)) := rfl
  rw [← q] at o4
  have c1 := abs_le.mp o4
  have c2 := abs_le.mp b
  norm_num at c1 c2
  rw [abs_le]
  constructor <;> norm_num <;> linarith

/-- **C96**, the fitness function (partial: for points that are `Clear`, under `Arith`, images of at most 6800000 pixels): what `Calculate` returns after any calls, from a base
and recorded mutations, is the quality of the picture that is exported for the points, up to 1/90000. -/
theorem c96_calculate_partial (L : LibOnce lib) (A : ∀ ops, Arith g (rne 53) w h ops) (hwh : w * h ≤ 6800000) (hb : 1 ≤ bs) (hb' : bs ≤ 16) (hN : N ≤ 32767)
    {n k : Nat} (hk : 1 ≤ k) {cs : List Call} {i : Nat} {ms : List Mut} {B : Book} {p : List Bool}
    (hB : Recordeds Alg.Unit01 N (Book.new n) (cs ++ [.calculate i ps ms]) B) (hf : flags (List.replicate n false) (cs ++ [.calculate i ps ms]) = some p)
    (C : Clear (ofBytes (rne 53) w h f) ps) :
    ∃ s v s' T out cols, calls (triFun g (rne 53) z (ofBytes (rne 53) w h f) bs bf) (newParallel n k) cs = some s ∧
      calculate (triFun g (rne 53) z (ofBytes (rne 53) w h f) bs bf) s i ps ms = some (v, s') ∧
      triangulate lib (rne 53) w h ps = some T ∧ trianglesOnImage (rne 53) z (ofBytes (rne 53) w h f) T = some out ∧ out.map Prod.snd = cols.map some ∧
      |v - quality z (ofBytes (rne 53) w h f) T cols| ≤ 1 / 90000 := by
  have R : Rnd 53 (rne 53) := rne_rnd (by norm_num)
  obtain ⟨s, v, s', hs, hv, -, u, ops, m, d0, H, e, ev⟩ := c40_own_points_partial (I := ofBytes (rne 53) w h f) (z := z) (bf := bf) R A
    (ofBytes_ok R w h f) hb hb' hN hk hB hf
  obtain ⟨T, out, cols, h1, h2, h3, h4⟩ := c96_picture_partial L (A ops) hwh hb hb' u C H e ev
  exact ⟨s, v, s', T, out, cols, hs, hv, h1, h2, h3, h4⟩

end

section
variable {σ : Type} {r : Source σ} {im : Source16} {n : Int} {srt : Alg.Sorter} {z : ℚ} {bf : D → D → Bufs} {s0 : σ} {lib : List Pt → List Nat}

/-- **C96**, the algorithm (partial: for best points that are `Clear`, IEEE arithmetic, images up to 4096 pixels a side and 6800000 pixels): after `DefaultAlgorithm` and any
number of steps the best fitness is the quality of the picture that is exported for `Best()`, up to 1/90000. -/
theorem c96_default_partial (L : LibOnce lib) (S : DefaultOK r im n srt) (hwh : im.maxX.toNat * im.maxY.toNat ≤ 6800000) {g : Nat} {a : Algo D Tri} {s : σ}
    (h : DefaultExec ieee srt z bf r im n s0 g a s) (C : Clear (theImage im) a.best) :
    ∃ T out cs, triangulate lib (rne 53) im.maxX.toNat im.maxY.toNat a.best = some T ∧ trianglesOnImage (rne 53) z (theImage im) T = some out ∧
      out.map Prod.snd = cs.map some ∧ |a.bestFit - quality z (theImage im) T cs| ≤ 1 / 90000 := by
  obtain ⟨-, -, -, hu, -, ⟨ops, m, d, H, e, ev, -⟩, -⟩ := c78_default_partial S h
  have A : Arith (gridGeo ieee im.maxX.toNat im.maxY.toNat) (rne 53) im.maxX.toNat im.maxY.toNat ops := (S.setting s0).arith ops
  exact c96_picture_partial L A hwh (by norm_num) (by norm_num) hu C H e ev

/-- One step of the algorithm under some schedule. -/
def Steps (F : FloatOps) (srt : Alg.Sorter) (z : ℚ) (bf : D → D → Bufs) (r : Source σ) (im : Source16) (n : Int) (x y : Algo D Tri × σ) : Prop :=
  ∃ l, DefaultStep F srt z bf r im n l x.1 x.2 y.1 y.2

/-- **C96**, progress (partial: for best points that are `Clear`, IEEE arithmetic, images up to 4096 pixels a side and 6800000 pixels): over any number of steps the exported
picture gets worse by at most 1/45000. -/
theorem c96_progress_partial (L : LibOnce lib) (S : DefaultOK r im n srt) (hwh : im.maxX.toNat * im.maxY.toNat ≤ 6800000) {g : Nat} {a a' : Algo D Tri} {s s' : σ}
    (h : DefaultExec ieee srt z bf r im n s0 g a s) (hs : Relation.ReflTransGen (Steps ieee srt z bf r im n) (a, s) (a', s'))
    (C : Clear (theImage im) a.best) (C' : Clear (theImage im) a'.best) :
    ∃ T T' out out' cs cs', triangulate lib (rne 53) im.maxX.toNat im.maxY.toNat a.best = some T ∧ triangulate lib (rne 53) im.maxX.toNat im.maxY.toNat a'.best = some T' ∧
      trianglesOnImage (rne 53) z (theImage im) T = some out ∧ trianglesOnImage (rne 53) z (theImage im) T' = some out' ∧
      out.map Prod.snd = cs.map some ∧ out'.map Prod.snd = cs'.map some ∧
      quality z (theImage im) T cs ≤ quality z (theImage im) T' cs' + 1 / 45000 := by
  have key : ∀ x, Relation.ReflTransGen (Steps ieee srt z bf r im n) (a, s) x → (∃ g', DefaultExec ieee srt z bf r im n s0 g' x.1 x.2) ∧ a.bestFit ≤ x.1.bestFit := by
    intro x hx
    induction hx with
    | refl => exact ⟨⟨g, h⟩, le_rfl⟩
    | tail _ h2 ih =>
      obtain ⟨⟨g', h3⟩, h4⟩ := ih
      obtain ⟨l, h5⟩ := h2
      obtain ⟨-, -, -, -, -, -, -, -, mono⟩ := c78_default_partial S h3
      exact ⟨⟨g' + 1, .step h3 h5⟩, h4.trans (mono _ _ _ h5)⟩
  obtain ⟨⟨g', h'⟩, le⟩ := key _ hs
  obtain ⟨T, out, cs, h1, h2, h3, h4⟩ := c96_default_partial L S hwh h C
  obtain ⟨T', out', cs', h1', h2', h3', h4'⟩ := c96_default_partial L S hwh h' C'
  refine ⟨T, T', out, out', cs, cs', h1, h1', h2, h2', h3, h3', ?_⟩
  have b := abs_le.mp h4
  have b' := abs_le.mp h4'
  norm_num at b b' ⊢
  linarith

end

/-! ### A library that reports each triangle once -/

/-- The points a triple of indices stands for. -/
def tripleCorners (l : List Pt) (x : Nat × Nat × Nat) : Finset (Option Pt) := {l[x.1]?, l[x.2.1]?, l[x.2.2]?}

theorem tripleCorners_verts {l : List Pt} {x : Nat × Nat × Nat} {t : Tri} (ha : l[x.1]? = some t.a) (hb : l[x.2.1]? = some t.b) (hc : l[x.2.2]? = some t.c) :
    tripleCorners l x = (verts t).map Function.Embedding.some := by
  unfold tripleCorners verts
  rw [ha, hb, hc]
  simp

open Classical in
/-- One triple of indices for each triangle whose circle has no point inside. -/
noncomputable def onceTriples (l : List Pt) : List (Nat × Nat × Nat) :=
  ((triples l.length).filter fun x => Good l x).pwFilter fun x y => tripleCorners l x ≠ tripleCorners l y

/-- The library with these indices. -/
noncomputable def onceLib (l : List Pt) : List Nat := (onceTriples l).flatMap fun x => [x.1, x.2.1, x.2.2]

open Classical in
theorem onceTriples_good {l : List Pt} {x : Nat × Nat × Nat} (hx : x ∈ onceTriples l) : x ∈ triples l.length ∧ Good l x := by
  have := List.mem_filter.mp ((List.pwFilter_sublist _).subset hx)
  exact ⟨this.1, by simpa using this.2⟩

open Classical in
/-- The assumptions on the library are met by this one. -/
theorem onceLib_ok : LibOnce onceLib := by
  have lt : ∀ {l : List Pt} {j : Nat} {v : Pt}, l[j]? = some v → j < l.length := fun {l j v} hj => (List.getElem?_eq_some_iff.mp hj).1
  refine ⟨⟨?_, ?_, ?_⟩, ?_⟩
  · intro l k hk
    obtain ⟨⟨a, b, c⟩, hx, hk⟩ := List.mem_flatMap.mp hk
    obtain ⟨ha, hb, hc⟩ := mem_triples.mp (onceTriples_good hx).1
    simp only [List.mem_cons, List.not_mem_nil, or_false] at hk
    rcases hk with rfl | rfl | rfl <;> assumption
  · rintro l t ⟨i, a, b, c, e, a1, b1, c1⟩
    unfold onceLib at e
    rw [nthTriple_flat] at e
    obtain ⟨p, q, r, a2, b2, c2, hg⟩ := (onceTriples_good (List.mem_of_getElem? e)).2
    simp only at a2 b2 c2
    rw [a1] at a2
    rw [b1] at b2
    rw [c1] at c2
    cases a2
    cases b2
    cases c2
    exact hg
  · intro l t o ha hb hc hn hcen ho
    obtain ⟨a, a1⟩ := List.mem_iff_getElem?.mp ha
    obtain ⟨b, b1⟩ := List.mem_iff_getElem?.mp hb
    obtain ⟨c, c1⟩ := List.mem_iff_getElem?.mp hc
    have good : Good l (a, b, c) := by
      refine ⟨t.a, t.b, t.c, a1, b1, c1, hn, ?_⟩
      rintro v hv ⟨o', hc', hlt⟩
      have : o' = o := Vor.centre_unique hn hc' hcen
      subst this
      by_cases hi : IsVertex t v
      · exact absurd (centre_eq hcen hi) hlt.ne
      · exact absurd (ho v hv hi) (not_lt.mpr hlt.le)
    have mem : (a, b, c) ∈ (triples l.length).filter fun x => decide (Good l x) :=
      List.mem_filter.mpr ⟨mem_triples.mpr ⟨lt a1, lt b1, lt c1⟩, by simpa using good⟩
    have : ∃ y ∈ onceTriples l, tripleCorners l (a, b, c) = tripleCorners l y := by
      by_contra hno
      have := (List.forall_mem_pwFilter (R := fun x y => tripleCorners l x ≠ tripleCorners l y) (fun {x y z} h => by
        by_contra hc
        simp only [not_or, not_not] at hc
        exact h (hc.1.trans hc.2)) (a, b, c) _).mp (fun y hy he => hno ⟨y, hy, he⟩) _ mem
      exact this rfl
    obtain ⟨⟨a', b', c'⟩, hy, he⟩ := this
    obtain ⟨p, q, r, a2, b2, c2, -⟩ := (onceTriples_good hy).2
    obtain ⟨i, hi⟩ := List.mem_iff_getElem?.mp hy
    refine ⟨⟨p, q, r⟩, ⟨i, a', b', c', by unfold onceLib; rw [nthTriple_flat]; exact hi, a2, b2, c2⟩, ?_⟩
    rw [tripleCorners_verts (t := t) a1 b1 c1, tripleCorners_verts (t := ⟨p, q, r⟩) a2 b2 c2] at he
    exact (Finset.map_injective _ he).symm
  · intro l i j a b c a' b' c' t t' e e' a1 b1 c1 a2 b2 c2 hv
    unfold onceLib at e e'
    rw [nthTriple_flat] at e e'
    have P : (onceTriples l).Pairwise fun x y => tripleCorners l x ≠ tripleCorners l y := List.pairwise_pwFilter _
    have eq : tripleCorners l (a, b, c) = tripleCorners l (a', b', c') := by
      rw [tripleCorners_verts (t := t) a1 b1 c1, tripleCorners_verts (t := t') a2 b2 c2, hv]
    obtain ⟨hi, ei⟩ := List.getElem?_eq_some_iff.mp e
    obtain ⟨hj, ej⟩ := List.getElem?_eq_some_iff.mp e'
    rw [List.pairwise_iff_getElem] at P
    by_contra hne
    rcases Nat.lt_or_gt_of_ne hne with hlt | hlt
    · exact P i j hi hj hlt (by rw [ei, ej]; exact eq)
    · exact P j i hj hi hlt (by rw [ei, ej]; exact eq.symm)

/-! ### Points that are clear -/

/-- The cross product of two sides. -/
def cross2 (a b c : Pt) : Int := (b.x - a.x) * (c.y - a.y) - (b.y - a.y) * (c.x - a.x)

theorem incirc_centre {a b c d : Pt} {o : P2} (h : Centre ⟨a, b, c⟩ o) : ((incirc a b c d : Int) : ℚ) = cross2 a b c * (d2 o d - d2 o a) := by
  obtain ⟨h1, h2⟩ := h
  simp only [d2] at h1 h2 ⊢
  unfold incirc cross2
  push_cast
  linear_combination (-(((c.x : ℚ) - a.x) * (d.y - a.y) - (c.y - a.y) * (d.x - a.x))) * h1 +
      (((b.x : ℚ) - a.x) * (d.y - a.y) - (b.y - a.y) * (d.x - a.x)) * h2

/-- That the circles of the Delaunay triangles of a list have no point of another list inside can be checked. -/
theorem hull_of {l sup : List Pt} (h : ∀ a ∈ l, ∀ b ∈ l, ∀ c ∈ l, (∃ p ∈ l, cross2 a b c * incirc a b c p < 0) ∨ ∀ v ∈ sup, 0 ≤ cross2 a b c * incirc a b c v)
    {t : Tri} (hv : ∀ v, IsVertex t v → v ∈ l) (hn : NonDegenerate t) (he : ∀ v ∈ l, ¬ InsideCircle t v) {v : Pt} (hs : v ∈ sup) : ¬ InsideCircle t v := by
  have key : ∀ (o : P2) (d : Pt), Centre t o → ((cross2 t.a t.b t.c * incirc t.a t.b t.c d : Int) : ℚ) = (cross2 t.a t.b t.c : ℚ) ^ 2 * (d2 o d - d2 o t.a) := by
    intro o d hc
    push_cast
    rw [incirc_centre (a := t.a) (b := t.b) (c := t.c) hc]
    ring
  rintro ⟨o, hc, hlt⟩
  have hx : (cross2 t.a t.b t.c : ℚ) ≠ 0 := by
    intro h0
    have h1 := (nondeg_iff t).mp hn
    have h2 : incirc t.a t.b t.c v = 0 := by
      have := incirc_centre (a := t.a) (b := t.b) (c := t.c) (d := v) hc
      rw [h0, zero_mul] at this
      exact_mod_cast this
    unfold NonDegenerate area2 loc at hn
    unfold cross2 at h0
    simp only at hn
    push_cast at h0 hn
    exact hn (by linear_combination h0)
  have h2 : 0 < (cross2 t.a t.b t.c : ℚ) ^ 2 := by positivity
  rcases h t.a (hv _ (Or.inl rfl)) t.b (hv _ (Or.inr (Or.inl rfl))) t.c (hv _ (Or.inr (Or.inr rfl))) with ⟨p, hp, h1⟩ | h1
  · refine he p hp ⟨o, hc, ?_⟩
    have : ((cross2 t.a t.b t.c * incirc t.a t.b t.c p : Int) : ℚ) < 0 := by exact_mod_cast h1
    rw [key o p hc] at this
    by_contra hn
    have := mul_nonneg h2.le (sub_nonneg.mpr (not_lt.mp hn))
    linarith
  · have : (0 : ℚ) ≤ ((cross2 t.a t.b t.c * incirc t.a t.b t.c v : Int) : ℚ) := by exact_mod_cast h1 v hs
    rw [key o v hc] at this
    have := mul_pos h2 (sub_pos.mpr hlt)
    linarith

/-- `tinyPoints` are clear. -/
theorem tiny_clear : Clear (checker (rne 53) 4 4) tinyPoints := by
  have e0 : pix (rne 53) (checker (rne 53) 4 4) tinyPoints = [⟨0, 0⟩, ⟨4, 1⟩, ⟨0, 4⟩, ⟨3, 4⟩] := by decide +kernel
  have e1 : newSuperTriangle 4 4 = ⟨⟨-6, -2⟩, ⟨2, 10⟩, ⟨10, -2⟩⟩ := by decide +kernel
  refine ⟨⟨by decide +kernel, general_of (l := [⟨0, 0⟩, ⟨4, 1⟩, ⟨0, 4⟩, ⟨3, 4⟩, ⟨-6, -2⟩, ⟨2, 10⟩, ⟨10, -2⟩]) ?_ (by decide +kernel)⟩, ?_⟩
  · rintro p (h | h)
    · rw [e0] at h
      simp only [List.mem_cons, List.not_mem_nil, or_false] at h ⊢
      tauto
    · change IsVertex (newSuperTriangle 4 4) p at h
      rw [e1] at h
      unfold IsVertex at h
      simp only [List.mem_cons, List.not_mem_nil, or_false]
      tauto
  · intro t hv hn he v hs
    rw [e0] at hv he
    refine hull_of (sup := [⟨-6, -2⟩, ⟨2, 10⟩, ⟨10, -2⟩]) (by decide +kernel) hv hn he ?_
    change IsVertex (newSuperTriangle 4 4) v at hs
    rw [e1] at hs
    unfold IsVertex at hs
    simp only [List.mem_cons, List.not_mem_nil, or_false]
    tauto

/-- The assumptions of `c96_calculate_partial` hold of the history of `tinyCalls`. -/
example : ∃ s v s' T out cols, calls tinyFun (newParallel 2 1) tinyCalls = some s ∧ calculate tinyFun s 1 tinyPoints tinyMut = some (v, s') ∧
    triangulate onceLib (rne 53) 4 4 tinyPoints = some T ∧ trianglesOnImage (rne 53) 0 (checker (rne 53) 4 4) T = some out ∧ out.map Prod.snd = cols.map some ∧
    |v - quality 0 (checker (rne 53) 4 4) T cols| ≤ 1 / 90000 :=
  c96_calculate_partial onceLib_ok (fun _ => arith_ieee tiny_size (by decide)) (by norm_num) (by norm_num) (by norm_num)
    (N := 4) (by norm_num) (n := 2) (k := 1) (by norm_num) tiny_recorded (p := [false, true]) (by decide) tiny_clear

/-- Three points, nearly on a line. -/
def leanDemo : List NP := [⟨0, 0⟩, ⟨1 / 2, 1 / 32⟩, ⟨31 / 32, 0⟩]

theorem leanDemo_unit : ∀ p ∈ leanDemo, Alg.Unit01 p := by
  intro p hp
  simp only [leanDemo, List.mem_cons, List.not_mem_nil, or_false] at hp
  rcases hp with rfl | rfl | rfl <;> (unfold Alg.Unit01; norm_num)

theorem leanDemo_group : leanDemo.map (groupPoint (rne 53) 40 30) = [⟨0, 0⟩, ⟨20, 1⟩, ⟨39, 0⟩] := by decide +kernel

/-- The function of a black image. -/
def blackFun : Fun D Tri :=
  triFun (gridGeo ieee 40 30) (rne 53) 0 (ofBytes (rne 53) 40 30 fun _ _ => (0, 0, 0)) 5 (fun _ _ => ⟨[], [], fun _ _ => [], fun _ => []⟩)

/-- Whatever library is used, one triangle is exported for `leanDemo`. -/
theorem lean_export {lib : List Pt → List Nat} (L : LibOnce lib) : ∃ t, triangulate lib (rne 53) 40 30 leanDemo = some [t] ∧ Mesh 40 30 [t] ∧ area t = 39 / 2 := by
  obtain ⟨T, hT, -⟩ := c80_triangulate lib L.ok (rne 53) 40 30 leanDemo
  have : ∃ t ∈ T, verts t = verts ⟨⟨0, 0⟩, ⟨20, 1⟩, ⟨39, 0⟩⟩ := by
    simp only [triangulate_reports L.ok hT, leanDemo_group]
    refine L.complete _ ⟨⟨0, 0⟩, ⟨20, 1⟩, ⟨39, 0⟩⟩ ⟨39 / 2, -379 / 2⟩ (by decide) (by decide) (by decide) (by unfold NonDegenerate; decide +kernel)
      (by unfold Centre; decide +kernel) ?_
    intro v hv hn
    exfalso
    simpa [IsVertex] using (show ¬ IsVertex _ v from hn) (by simpa [IsVertex] using hv)
  obtain ⟨t, ht, hv⟩ := this
  have all : ∀ t ∈ T, verts t = verts ⟨⟨0, 0⟩, ⟨20, 1⟩, ⟨39, 0⟩⟩ ∧ NonDegenerate t := by
    intro t ht
    have hr := (triangulate_reports L.ok hT t).mp ht
    have hn := (L.sound _ t hr).1
    obtain ⟨i, a, b, c, -, h1, h2, h3⟩ := hr
    rw [leanDemo_group] at h1 h2 h3
    have m1 := List.mem_of_getElem? h1
    have m2 := List.mem_of_getElem? h2
    have m3 := List.mem_of_getElem? h3
    refine ⟨?_, hn⟩
    obtain ⟨x, y, z⟩ := t
    obtain ⟨n1, n2, n3⟩ := nondeg_ne hn
    simp only [List.mem_cons, List.not_mem_nil, or_false] at m1 m2 m3
    rcases m1 with rfl | rfl | rfl <;> rcases m2 with rfl | rfl | rfl <;> rcases m3 with rfl | rfl | rfl <;>
      first | decide | exact absurd rfl n1 | exact absurd rfl n2 | exact absurd rfl n3
  have one : T = [t] := by
    have nd := triangulate_nodup L hT
    cases T with
    | nil => exact absurd ht (by simp)
    | cons x T =>
      cases T with
      | nil => rw [List.mem_singleton.mp ht]
      | cons y T =>
        have : verts x = verts y := by rw [(all x (by simp)).1, (all y (by simp)).1]
        simp [this] at nd
  have M : Mesh 40 30 [(⟨⟨0, 0⟩, ⟨20, 1⟩, ⟨39, 0⟩⟩ : Tri)] := by
    refine ⟨?_, ?_, ?_, ?_⟩
    · intro t ht v hv
      simp only [List.mem_singleton] at ht
      subst ht
      simp only [vlist, List.mem_cons, List.not_mem_nil, or_false] at hv
      rcases hv with rfl | rfl | rfl <;> decide
    · intro t ht
      simp only [List.mem_singleton] at ht
      subst ht
      unfold NonDegenerate
      decide +kernel
    · simp only [List.map_cons, List.map_nil, List.sum_cons, List.sum_nil]
      decide +kernel
    · intro fl R z q
      unfold visits
      simp only [List.map_cons, List.map_nil, List.sum_cons, List.sum_nil, add_zero]
      have := c28_blocks (fun a b => R.mono a b) z (⟨⟨0, 0⟩, ⟨20, 1⟩, ⟨39, 0⟩⟩ : Tri) (bs := 1) le_rfl
      exact List.nodup_iff_count_le_one.mp ((this.1.nodup_iff).mp this.2) q
  have M' : Mesh 40 30 T := by
    refine M.perm (fun t ht => (all t ht).2) ?_
    rw [one]
    simp [hv]
  subst one
  refine ⟨t, hT, M', ?_⟩
  rw [area_verts (all t ht).2 (M.nondeg _ (List.mem_singleton.mpr rfl)) hv]
  decide +kernel

/-- **C96 fails near the border**: for the three points of `leanDemo` on a black 40 x 30 image the fitness is 0, but whatever Delaunay library is used, the exported picture
has a quality of more than 1/100. -/
theorem c96_border_false : (∀ p ∈ leanDemo, Alg.Unit01 p) ∧ (∃ s, calculate blackFun (newParallel 1 3) 0 leanDemo [] = some (0, s)) ∧
    ∀ lib, LibOnce lib → ∃ T out cs, triangulate lib (rne 53) 40 30 leanDemo = some T ∧
      trianglesOnImage (rne 53) 0 (ofBytes (rne 53) 40 30 fun _ _ => (0, 0, 0)) T = some out ∧ out.map Prod.snd = cs.map some ∧
      1 / 100 ≤ quality 0 (ofBytes (rne 53) 40 30 fun _ _ => (0, 0, 0)) T cs := by
  have R : Rnd 53 (rne 53) := rne_rnd (by norm_num)
  refine ⟨leanDemo_unit, ?_, ?_⟩
  · have : ((calculate blackFun (newParallel 1 3) 0 leanDemo []).map fun x => decide (x.1 = 0)) = some true := by decide +kernel
    obtain ⟨⟨v, s⟩, h1, h2⟩ := Option.map_eq_some_iff.mp this
    exact ⟨s, by rw [h1]; simpa using h2⟩
  · intro lib L
    obtain ⟨t, hT, M', ha⟩ := lean_export L
    obtain ⟨out, cs, v, h1, h2, -, h4, h5⟩ := c87_ieee 0 (fun _ _ => (0, 0, 0)) (bs := 5) (by norm_num) (by norm_num) (w := 40) (h := 30) (by norm_num) (by norm_num)
      (by norm_num) (by norm_num) (by norm_num) M'
    refine ⟨[t], out, cs, hT, h1, h2, ?_⟩
    have h6 := h5 [(ofBytes (rne 53) 40 30 fun _ _ => (0, 0, 0)).px 0 0] rfl
    rw [(pictureErr_zero (I := ofBytes (rne 53) 40 30 fun _ _ => (0, 0, 0))).2.mpr ?_] at h6
    · have a : ([t].map area).sum = 39 / 2 := by simp [ha]
      unfold quality
      change _ ≤ ([t].map area).sum / (((40 : ℕ) : ℚ) * ((30 : ℕ) : ℚ)) - _ / (3 * (((40 : ℕ) : ℚ) * ((30 : ℕ) : ℚ)))
      have h7 := abs_le.mp h4
      rw [a] at h6 h7 ⊢
      norm_num at h6 h7 ⊢
      linarith
    · intro x y _ _ c hc
      obtain ⟨e, he, -, rfl⟩ := shade_isSome hc
      rw [List.mem_singleton.mp (List.of_mem_zip he).2]
      rfl

/-- `leanDemo` is in general position. -/
theorem lean_regular : Regular (ofBytes (rne 53) 40 30 fun _ _ => (0, 0, 0)) leanDemo := by
  have e0 : pix (rne 53) (ofBytes (rne 53) 40 30 fun _ _ => (0, 0, 0)) leanDemo = [⟨0, 0⟩, ⟨20, 1⟩, ⟨39, 0⟩] := by decide +kernel
  have e1 : newSuperTriangle 40 30 = ⟨⟨-60, -25⟩, ⟨20, 95⟩, ⟨100, -25⟩⟩ := by decide +kernel
  refine ⟨by decide +kernel, general_of (l := [⟨0, 0⟩, ⟨20, 1⟩, ⟨39, 0⟩, ⟨-60, -25⟩, ⟨20, 95⟩, ⟨100, -25⟩]) ?_ (by decide +kernel)⟩
  rintro p (h | h)
  · rw [e0] at h
    simp only [List.mem_cons, List.not_mem_nil, or_false] at h ⊢
    tauto
  · change IsVertex (newSuperTriangle 40 30) p at h
    rw [e1] at h
    unfold IsVertex at h
    simp only [List.mem_cons, List.not_mem_nil, or_false]
    tauto

/-- The assumptions of `c96_lower_partial` hold of it. -/
example : ∃ d T v out cs, exec (gridGeo ieee 40 30) (rne 53) 40 30 ((pix (rne 53) (ofBytes (rne 53) 40 30 fun _ _ => (0, 0, 0)) leanDemo).map .ins) = some d ∧
    triangulate onceLib (rne 53) 40 30 leanDemo = some T ∧ T ≠ [] ∧
    evalTris (rne 53) 0 (ofBytes (rne 53) 40 30 fun _ _ => (0, 0, 0)) 5 (iterTriangles d) = some v ∧
    trianglesOnImage (rne 53) 0 (ofBytes (rne 53) 40 30 fun _ _ => (0, 0, 0)) T = some out ∧ out.map Prod.snd = cs.map some ∧
    v ≤ quality 0 (ofBytes (rne 53) 40 30 fun _ _ => (0, 0, 0)) T cs + 1 / 90000 := by
  have R : Rnd 53 (rne 53) := rne_rnd (by norm_num)
  obtain ⟨m, H⟩ := hist_ins (pix (rne 53) (ofBytes (rne 53) 40 30 fun _ _ => (0, 0, 0)) leanDemo) (Hist.nil (w := 40) (h := 30))
    (pix_img R (by decide) (by decide) leanDemo_unit) (by decide)
  rw [List.nil_append, zero_add] at H
  obtain ⟨d, e⟩ := c06_c07_run_ok_partial (arith_ieee demo_size (by decide)) H
  obtain ⟨v, ev, -⟩ := eval_sum 0 (fun _ _ => (0, 0, 0)) (bs := 5) (by norm_num) (by norm_num) (by norm_num) (by norm_num) (by norm_num) (by norm_num) (by norm_num)
    (mesh_of (arith_ieee demo_size (by decide)) H e)
  obtain ⟨t, hT, M, -⟩ := lean_export onceLib_ok
  obtain ⟨out, cs, h1, h2, h3⟩ := c96_lower_partial onceLib_ok (arith_ieee demo_size (by decide)) (by norm_num) (by norm_num) (by norm_num) leanDemo_unit lean_regular H e hT M ev
  exact ⟨d, [t], v, out, cs, e, hT, by simp, ev, h1, h2, h3⟩

/-! ### The algorithm -/

/-- All members of both populations of an algorithm have a property. -/
def Everyone (P : List NP → Prop) (a : Algo D Tri) : Prop := (∀ p ∈ a.pop, P p) ∧ ∀ p ∈ a.newPop, P p

theorem everyone_new {P : List NP → Prop} {μ : Mutator} {cutoff lim : Nat} {a a' : Algo D Tri} (hμ : ∀ i p, P p → P (μ i p).1) (ha : Everyone P a)
    (e : newGeneration μ cutoff lim a = some a') : Everyone P a' := by
  have elite : ∀ (l : List Nat) (st st' : List (List NP) × List (List Mut)), (∀ p ∈ st.1, P p) → l.foldlM (eliteStep a.pop) st = some st' → ∀ p ∈ st'.1, P p := by
    intro l
    induction l with
    | nil => intro st st' h e; simp only [List.foldlM_nil, Option.pure_def, Option.some.injEq] at e; rwa [← e]
    | cons i l ih =>
      intro st st' h e
      rw [List.foldlM_cons, Option.bind_eq_bind, Option.bind_eq_some_iff] at e
      obtain ⟨st1, e1, e2⟩ := e
      refine ih st1 st' ?_ e2
      simp only [eliteStep, Option.bind_eq_bind, Option.bind_eq_some_iff, setPts] at e1
      obtain ⟨p, h1, q, h2, r, h3, x, h4, h5⟩ := e1
      split at h3
      · cases h3
        simp only [Option.some.injEq] at h5
        subst h5
        intro y hy
        rcases List.mem_or_eq_of_mem_set hy with hy | rfl
        · exact h y hy
        · exact ha.1 _ (List.mem_of_getElem? h1)
      · cases h3
  have muts : ∀ (m i j : Nat) (st st' : List (List NP) × List (List Mut) × Sys D Tri), (∀ p ∈ st.1, P p) → mutLoop μ a.pop cutoff m i j st = some st' → ∀ p ∈ st'.1, P p := by
    intro m
    induction m with
    | zero => intro i j st st' h e; simp only [mutLoop, Option.some.injEq] at e; rwa [← e]
    | succ m ih =>
      intro i j st st' h e
      simp only [mutLoop] at e
      split at e
      · cases e
      · rw [Option.bind_eq_bind, Option.bind_eq_some_iff] at e
        obtain ⟨st1, e1, e2⟩ := e
        refine ih _ _ st1 st' ?_ e2
        simp only [mutStep, Option.bind_eq_bind, Option.bind_eq_some_iff, setPts] at e1
        obtain ⟨p, h1, q, h2, x, h3, r, h4, y, h5, h6⟩ := e1
        split at h4
        · cases h4
          simp only [Option.some.injEq] at h6
          subst h6
          intro y hy
          rcases List.mem_or_eq_of_mem_set hy with hy | rfl
          · exact h y hy
          · exact hμ _ _ (ha.1 _ (List.mem_of_getElem? h1))
        · cases h4
  simp only [newGeneration, Option.bind_eq_bind, Option.bind_eq_some_iff, Option.some.injEq] at e
  obtain ⟨x, e1, y, e2, rfl⟩ := e
  exact ⟨muts _ _ _ _ _ (elite _ _ _ ha.2 e1) e2, ha.1⟩

theorem everyone_sort {P : List NP → Prop} {srt : Alg.Sorter} {a a' : Algo D Tri} (ha : Everyone P a) (e : updateFitnesses srt a = some a') : Everyone P a' ∧ P a'.best := by
  have swaps : ∀ (l : List (Nat × Nat)) (a a' : Algo D Tri), Everyone P a → l.foldlM swapAlgo a = some a' → Everyone P a' := by
    intro l
    induction l with
    | nil => intro a a' h e; simp only [List.foldlM_nil, Option.pure_def, Option.some.injEq] at e; rwa [← e]
    | cons x l ih =>
      intro a a' h e
      rw [List.foldlM_cons, Option.bind_eq_bind, Option.bind_eq_some_iff] at e
      obtain ⟨a1, e1, e2⟩ := e
      refine ih a1 a' ?_ e2
      simp only [swapAlgo, Option.bind_eq_bind, Option.bind_eq_some_iff, Option.some.injEq] at e1
      obtain ⟨f, -, p, hp, s, -, rfl⟩ := e1
      exact ⟨fun q hq => h.1 q ((swapList_perm hp).subset hq), h.2⟩
  simp only [updateFitnesses, Option.bind_eq_bind, Option.bind_eq_some_iff, Option.some.injEq, setPts] at e
  obtain ⟨a1, e1, p, e2, b, e3, v, e4, rfl⟩ := e
  have h := swaps _ _ _ ha e1
  split at e3
  · cases e3
    exact ⟨h, h.1 _ (List.mem_of_getElem? e2)⟩
  · cases e3

/-- A source that repeats the coordinates of three points and never asks for a mutation. -/
def steady : Source Nat where
  float32 n := (7 / 8, n)
  norm n := (0, n)
  float64 n := (([0, 1 / 8, 7 / 8, 1 / 4, 1 / 4, 7 / 8] : List ℚ).getD (n % 6) 0, n + 1)
  intn _ n := (0, n)

theorem steady_ok : steady.OK := by
  refine ⟨fun s => ?_, fun n s h => h⟩
  have h : s % 6 < 6 := Nat.mod_lt _ (by norm_num)
  simp only [steady]
  have key : ∀ k < 6, 0 ≤ ([0, 1 / 8, 7 / 8, 1 / 4, 1 / 4, 7 / 8] : List ℚ).getD k 0 ∧ ([0, 1 / 8, 7 / 8, 1 / 4, 1 / 4, 7 / 8] : List ℚ).getD k 0 < 1 := by decide +kernel
  exact key _ h

/-- The points of every member. -/
def steadyPoints : List NP := [⟨0, 1 / 8⟩, ⟨7 / 8, 1 / 4⟩, ⟨1 / 4, 7 / 8⟩]

/-- The image of the example. -/
def steadyImage : Source16 := ⟨6, 5, fun x y => (min 65535 (8191 * x), min 65535 (13107 * y), 65535)⟩

theorem steady_setting : DefaultOK steady steadyImage 3 someSorter :=
  ⟨steady_ok, fun x y => ⟨min_le_left _ _, min_le_left _ _, le_rfl⟩, by decide, by decide, by decide, by norm_num, someSorter_ok⟩

theorem steady_draw (m s : Nat) (hs : s % 6 = 0) : (∀ p ∈ (draw steady 3 m s).1, p = steadyPoints) ∧ (draw steady 3 m s).2 % 6 = 0 := by
  induction m with
  | zero => exact ⟨by simp [draw], hs⟩
  | succ m ih =>
    obtain ⟨h1, h2⟩ := ih
    obtain ⟨k, hk⟩ : ∃ k, (draw steady 3 m s).2 = 6 * k := ⟨(draw steady 3 m s).2 / 6, by omega⟩
    have r : randomPoints steady 3 (6 * k) = (steadyPoints, 6 * k + 6) := by
      have m0 : 6 * k % 6 = 0 := by omega
      have m1 : (6 * k + 1) % 6 = 1 := by omega
      have m2 : (6 * k + 1 + 1) % 6 = 2 := by omega
      have m3 : (6 * k + 1 + 1 + 1) % 6 = 3 := by omega
      have m4 : (6 * k + 1 + 1 + 1 + 1) % 6 = 4 := by omega
      have m5 : (6 * k + 1 + 1 + 1 + 1 + 1) % 6 = 5 := by omega
      simp only [randomPoints, steady, m0, m1, m2, m3, m4, m5]
      rfl
    constructor
    · intro p hp
      simp only [draw, List.mem_append, List.mem_singleton] at hp
      rcases hp with hp | rfl
      · exact h1 p hp
      · rw [hk]
        exact congrArg Prod.fst r
    · simp only [draw]
      rw [hk]
      have : (randomPoints steady (Int.toNat 3) (6 * k)).2 = 6 * k + 6 := congrArg Prod.snd r
      rw [this]
      omega

theorem steady_exec {bf : D → D → Bufs} {z : ℚ} {g : Nat} {a : Algo D Tri} {s : Nat} (h : DefaultExec ieee someSorter z bf steady steadyImage 3 0 g a s) :
    Everyone (· = steadyPoints) a ∧ a.best = steadyPoints := by
  induction h with
  | new h =>
    obtain ⟨I, P, -, -, ⟨a1, q, e1, -, -, e2⟩, -⟩ := h
    refine everyone_sort ?_ e2
    simp only [simpleInit, Option.bind_eq_bind, Option.bind_eq_some_iff, Option.some.injEq] at e1
    obtain ⟨b, -, rfl⟩ := e1
    exact ⟨(steady_draw 400 0 rfl).1, (steady_draw 400 0 rfl).1⟩
  | step _ h ih =>
    obtain ⟨I, -, ⟨a1, q, a2, e1, -, -, e2, rfl⟩, -⟩ := h
    have h1 : Everyone (· = steadyPoints) a1 := by
      refine everyone_new (fun i p hp => ?_) ih.1 e1
      subst hp
      have rate : ¬ (7 / 8 : ℚ) < defaultRate ieee 3 := by decide +kernel
      simp [defaultMutator, gaussian, gaussStep, steadyPoints, steady, rate, List.range_succ]
    have h2 := everyone_sort (a := { a1 with sys := q.sys, fit := collect a1.fit q.arr }) (a' := a2) h1 e2
    exact h2

/-- `steadyPoints` are clear. -/
theorem steady_clear : Clear (theImage steadyImage) steadyPoints := by
  have e0 : pix (rne 53) (theImage steadyImage) steadyPoints = [⟨0, 1⟩, ⟨5, 1⟩, ⟨2, 4⟩] := by decide +kernel
  have e1 : newSuperTriangle 6 5 = ⟨⟨-9, -3⟩, ⟨3, 15⟩, ⟨15, -3⟩⟩ := by decide +kernel
  refine ⟨⟨by decide +kernel, general_of (l := [⟨0, 1⟩, ⟨5, 1⟩, ⟨2, 4⟩, ⟨-9, -3⟩, ⟨3, 15⟩, ⟨15, -3⟩]) ?_ (by decide +kernel)⟩, ?_⟩
  · rintro p (h | h)
    · rw [e0] at h
      simp only [List.mem_cons, List.not_mem_nil, or_false] at h ⊢
      tauto
    · change IsVertex (newSuperTriangle 6 5) p at h
      rw [e1] at h
      unfold IsVertex at h
      simp only [List.mem_cons, List.not_mem_nil, or_false]
      tauto
  · intro t hv hn he v hs
    rw [e0] at hv he
    refine hull_of (sup := [⟨-9, -3⟩, ⟨3, 15⟩, ⟨15, -3⟩]) (by decide +kernel) hv hn he ?_
    change IsVertex (newSuperTriangle 6 5) v at hs
    rw [e1] at hs
    unfold IsVertex at hs
    simp only [List.mem_cons, List.not_mem_nil, or_false]
    tauto

/-- The assumptions of `c96_default_partial` and `c96_progress_partial` hold: `DefaultAlgorithm` and a step of it with that source. -/
example : ∃ a a' s s' T T' out out' cs cs', DefaultExec ieee someSorter 0 (fun _ _ => ⟨[], [], fun _ _ => [], fun _ => []⟩) steady steadyImage 3 0 0 a s ∧
    Steps ieee someSorter 0 (fun _ _ => ⟨[], [], fun _ _ => [], fun _ => []⟩) steady steadyImage 3 (a, s) (a', s') ∧
    triangulate onceLib (rne 53) 6 5 a.best = some T ∧ triangulate onceLib (rne 53) 6 5 a'.best = some T' ∧
    trianglesOnImage (rne 53) 0 (theImage steadyImage) T = some out ∧ trianglesOnImage (rne 53) 0 (theImage steadyImage) T' = some out' ∧
    out.map Prod.snd = cs.map some ∧ out'.map Prod.snd = cs'.map some ∧
    quality 0 (theImage steadyImage) T cs ≤ quality 0 (theImage steadyImage) T' cs' + 1 / 45000 := by
  obtain ⟨l, a, s, h⟩ := (c78_new_partial (z := 0) (bf := fun _ _ => ⟨[], [], fun _ _ => [], fun _ => []⟩) steady_setting 0).mpr (by decide)
  have E := DefaultExec.new h
  obtain ⟨-, -, -, -, -, -, -, ⟨l', a', s', hs⟩, -⟩ := c78_default_partial steady_setting E
  have C : Clear (theImage steadyImage) a.best := by rw [(steady_exec E).2]; exact steady_clear
  have C' : Clear (theImage steadyImage) a'.best := by rw [(steady_exec (.step E hs)).2]; exact steady_clear
  obtain ⟨T, T', out, out', cs, cs', h1⟩ := c96_progress_partial onceLib_ok steady_setting (by decide) E (.single ⟨l', hs⟩) C C'
  exact ⟨a, a', s, s', T, T', out, out', cs, cs', E, ⟨l', hs⟩, h1⟩

end Verif.Props

import Verif.Alg.Book
import Verif.Alg.TriFun
import Verif.Alg.PolyFun

/-!
# Properties of the caches and of incremental evaluation (C35, C36, C40, C41)

A history is any list of calls `Calculate`, `Update`, `Prepare`, `SetBase`, `Swap` on a new parallel evaluator, as long as none of them
panics.
-/

namespace Verif.Props

open Verif.Tri Verif.Spec Verif.Float Verif.Raster Verif.Fit Verif.Alg
open Verif.Incr hiding trunc step run Entry

section
variable {g : Geo} {fl : ℚ → ℚ} {z : ℚ} {I : Img} {bs : Nat} {bf : D → D → Bufs}

/-- **C35**, triangles.  After any history, for any cache exponent and number of members, a `Calculate` that returns `v` returns the
fitness computed without any cache of the triangulation it leaves behind, and this triangulation does not depend on caches. -/
theorem c35_triangles {n k : Nat} {cs : List Call} {s s' : Sys D Tri} {i : Nat} {ps : List NP} {ms : List Mut} {v : ℚ}
    (hs : calls (triFun g fl z I bs bf) (newParallel n k) cs = some s)
    (hv : calculate (triFun g fl z I bs bf) s i ps ms = some (v, s')) :
    ∃ id d, s.slots[i]? = some id ∧ (s'.fns id).tri = some d ∧
      setup (triFun g fl z I bs bf) (s.fns id) (fun b => (s.fns b).tri) ps ms = some d ∧
      evalTris fl z I bs (iterTriangles d) = some v := by
  have V := SysValid.calls (same_tri (g := g) (fl := fl) (z := z) (I := I) (bs := bs) (bf := bf) (fun _ => True)) (fun _ _ _ => trivial) cs (SysValid.new n k) hs
  obtain ⟨id, d, out, h1, h2, h3, rfl, -⟩ := calculate_spec (same_tri _) (fun _ _ _ => trivial) V hv
  exact ⟨id, d, h1, by simp [setFn], h2, by rw [← plain_tri]; exact h3⟩

/-- **C35**, polygons, over any diagram object whose polygons have rounded coordinates an int16 holds. -/
theorem c35_polygons {W : Type} {new : Option W} {ins rem : W → Pt → Option W} {set : W → W → W} {polys : W → List (List (ℚ × ℚ))}
    (hr : ∀ d, ∀ P ∈ polys d, Int16Poly (roundPoly fl P))
    {n k : Nat} {cs : List Call} {s s' : Sys W (List Pt)} {i : Nat} {ps : List NP} {ms : List Mut} {v : ℚ}
    (hs : calls (polyFun new ins rem set polys fl z I bs) (newParallel n k) cs = some s)
    (hv : calculate (polyFun new ins rem set polys fl z I bs) s i ps ms = some (v, s')) :
    ∃ id d, s.slots[i]? = some id ∧ (s'.fns id).tri = some d ∧
      setup (polyFun new ins rem set polys fl z I bs) (s.fns id) (fun b => (s.fns b).tri) ps ms = some d ∧
      evalPolys fl z I bs (polys d) = some v := by
  have hok : ∀ d, ∀ key ∈ (polyFun new ins rem set polys fl z I bs).keys d, Int16Poly key := by
    intro d key hk
    obtain ⟨P, hP, rfl⟩ := List.mem_map.mp hk
    exact hr d P hP
  have V := SysValid.calls same_poly hok cs (SysValid.new n k) hs
  obtain ⟨id, d, out, h1, h2, h3, rfl, -⟩ := calculate_spec same_poly hok V hv
  exact ⟨id, d, h1, by simp [setFn], h2, by rw [← plain_poly]; exact h3⟩

end

/-! ### Concrete cases -/

/-- A 4 x 4 image, IEEE arithmetic, blocks of one pixel, no spare memory in slices. -/
def tinyFun : Fun D Tri :=
  triFun (gridGeo ieee 4 4) (rne 53) 0 (checker (rne 53) 4 4) 1 (fun _ _ => ⟨[], [], fun _ _ => [], fun _ => []⟩)

/-- The corners of the unit square. -/
def unitCorners : List NP := [⟨0, 0⟩, ⟨1, 0⟩, ⟨0, 1⟩, ⟨1, 1⟩]

/-- A history with two members: both are evaluated, member 1 again from member 0 with two points moved. -/
def tinyCalls : List Call :=
  [.calculate 0 unitCorners [], .prepare, .update 0, .calculate 1 unitCorners [], .prepare, .update 1, .setBase 1 0]

/-- The points member 1 is evaluated at then. -/
def tinyPoints : List NP := [⟨0, 0⟩, ⟨1, 1 / 4⟩, ⟨0, 1⟩, ⟨3 / 4, 1⟩]

/-- The mutations recorded against the corners. -/
def tinyMut : List Mut := [⟨⟨1, 0⟩, ⟨1, 1 / 4⟩, 1⟩, ⟨⟨1, 1⟩, ⟨3 / 4, 1⟩, 3⟩]

example : ∃ s v s', calls tinyFun (newParallel 2 3) tinyCalls = some s ∧ calculate tinyFun s 1 tinyPoints tinyMut = some (v, s') ∧
    ∃ id d, s.slots[1]? = some id ∧ (s'.fns id).tri = some d ∧ evalTris (rne 53) 0 (checker (rne 53) 4 4) 1 (iterTriangles d) = some v := by
  have h : ((calls tinyFun (newParallel 2 3) tinyCalls).bind fun s => calculate tinyFun s 1 tinyPoints tinyMut).isSome = true := by decide +kernel
  obtain ⟨⟨v, s'⟩, h⟩ := Option.isSome_iff_exists.mp h
  rw [Option.bind_eq_some_iff] at h
  obtain ⟨s, h1, h2⟩ := h
  obtain ⟨id, d, a, b, -, c⟩ := c35_triangles h1 h2
  exact ⟨s, v, s', h1, h2, id, d, a, b, c⟩

/-- A diagram object that stores its points and has one polygon. -/
def toyPoly : Fun (List Pt) (List Pt) :=
  polyFun (some []) (fun d p => some (d ++ [p])) (fun d p => some (d.erase p)) (fun _ o => o)
    (fun _ => [[(0, 0), (4, 1 / 4), (4, 4), (1, 3)]]) id 0 (checker id 4 4) 2

example : ∃ s v s', calls toyPoly (newParallel 2 3) tinyCalls = some s ∧ calculate toyPoly s 1 tinyPoints tinyMut = some (v, s') ∧
    evalPolys id 0 (checker id 4 4) 2 [[(0, 0), (4, 1 / 4), (4, 4), (1, 3)]] = some v := by
  have h : ((calls toyPoly (newParallel 2 3) tinyCalls).bind fun s => calculate toyPoly s 1 tinyPoints tinyMut).isSome = true := by decide +kernel
  obtain ⟨⟨v, s'⟩, h⟩ := Option.isSome_iff_exists.mp h
  rw [Option.bind_eq_some_iff] at h
  obtain ⟨s, h1, h2⟩ := h
  have hr : ∀ d : List Pt, ∀ P ∈ (fun _ : List Pt => [[((0 : ℚ), (0 : ℚ)), (4, 1 / 4), (4, 4), (1, 3)]]) d, Int16Poly (roundPoly id P) := by
    intro d P hP
    simp only [List.mem_singleton] at hP
    subst hP
    unfold Int16Poly
    decide +kernel
  obtain ⟨id, d, -, -, -, c⟩ := c35_polygons hr h1 h2
  exact ⟨s, v, s', h1, h2, c⟩

/-! ### C36 -/

/-- **C36**, for histories in which `Calculate` and `Update` of a member alternate (`flags`), as both algorithms call them, and exponents
from 1: `Update` of a calculated member succeeds, and `Calculate` succeeds unless the triangulation or the value of a piece panics, so no
cache access is out of range. -/
theorem c36_in_range_partial {Dt K : Type} {F : Fun Dt K} {n k : Nat} (hk : 1 ≤ k) {cs : List Call} {p : List Bool} {s : Sys Dt K}
    (hf : flags (List.replicate n false) cs = some p) (hs : calls F (newParallel n k) cs = some s) :
    (∀ i, p[i]? = some true → ∃ s', update s i = some s') ∧
    (∀ i id ps ms d, p[i]? = some false → s.slots[i]? = some id → setup F (s.fns id) (fun b => (s.fns b).tri) ps ms = some d →
      (∀ key ∈ F.keys d, ∃ v, F.val key = some v) → ∃ r, calculate F s i ps ms = some r) := by
  obtain ⟨J, O⟩ := (FlagInv.new n k).calls cs hf hs
  obtain ⟨r1, -, -⟩ := range_calls cs hk (range_new n k).1 (range_new n k).2 O hs
  constructor
  · intro i hp
    have hi : i < s.slots.length := by rw [← J.len]; exact (List.getElem?_eq_some_iff.mp hp).1
    have hid : s.slots[i]? = some s.slots[i] := List.getElem?_eq_getElem hi
    exact update_some r1 hid ((J.own i _ hid).mpr hp)
  · intro i id ps ms d hp hid h1 h2
    refine calculate_some hid ?_ h1 h2
    rw [Ne, J.own i id hid, hp]
    simp

example : flags (List.replicate 2 false) (tinyCalls ++ [.calculate 1 tinyPoints tinyMut]) = some [false, true] := by decide

example : ∃ s s', calls tinyFun (newParallel 2 1) (tinyCalls ++ [.calculate 1 tinyPoints tinyMut]) = some s ∧ update s 1 = some s' := by
  have h : (calls tinyFun (newParallel 2 1) (tinyCalls ++ [.calculate 1 tinyPoints tinyMut])).isSome = true := by decide +kernel
  obtain ⟨s, h⟩ := Option.isSome_iff_exists.mp h
  obtain ⟨s', h'⟩ := (c36_in_range_partial (p := [false, true]) (by norm_num) (by decide) h).1 1 rfl
  exact ⟨s, s', h, h'⟩

/-- **C36** is false of other histories: a second `Calculate` before `Update` uses the member's own cache, whose length is the number of
triangles, for its indexes, and these can lie outside the shared cache. -/
theorem c36_twice_false :
    (calls tinyFun (newParallel 1 1) [.calculate 0 (unitCorners ++ [⟨1 / 4, 1 / 4⟩]) [], .calculate 0 (unitCorners ++ [⟨1 / 4, 1 / 4⟩]) []]).isSome = true ∧
    calls tinyFun (newParallel 1 1) [.calculate 0 (unitCorners ++ [⟨1 / 4, 1 / 4⟩]) [], .calculate 0 (unitCorners ++ [⟨1 / 4, 1 / 4⟩]) [], .update 0] = none := by
  constructor <;> decide +kernel

/-- The exponent must be at least 1: with 0 the first `Update` can panic. -/
theorem c36_exponent_zero :
    (calls tinyFun (newParallel 1 0) [.calculate 0 unitCorners [], .prepare]).isSome = true ∧
    calls tinyFun (newParallel 1 0) [.calculate 0 unitCorners [], .prepare, .update 0] = none := by
  constructor <;> decide +kernel

/-! ### C40 -/

section
variable {g : Geo} {fl : ℚ → ℚ} {z : ℚ} {I : Img} {bs : Nat} {bf : D → D → Bufs}

theorem recordeds_snoc {Dom : NP → Prop} {N : Nat} : ∀ {cs : List Call} {B B' : Book} {c : Call}, Recordeds Dom N B (cs ++ [c]) B' →
    ∃ B1, Recordeds Dom N B cs B1 ∧ Recorded Dom N B1 c B'
  | [], B, B', c, h => by
    cases h with
    | cons h1 h2 => cases h2; exact ⟨B, .nil _, h1⟩
  | c0 :: cs, B, B', c, h => by
    cases h with
    | cons h1 h2 =>
      obtain ⟨B1, a, b⟩ := recordeds_snoc h2
      exact ⟨B1, .cons h1 a, b⟩

/-- **C40** (partial: under `Arith`).  Take any history of calls in turn in which every function is first given points of the unit square and
later only mutations recorded against the points its base then has.  None of these calls panics.  The value of a last `Calculate` with points
`ps` is the uncached fitness of the triangulation after some history of `Insert` and `Remove` that leaves exactly the pixel points of `ps`. -/
theorem c40_own_points_partial (R : Rnd 53 fl) (A : ∀ ops, Arith g fl I.w I.h ops) (hI : I.OK) (hb : 1 ≤ bs) (hb' : bs ≤ 16) {N : Nat} (hN : N ≤ 32767)
    {n k : Nat} (hk : 1 ≤ k) {cs : List Call} {i : Nat} {ps : List NP} {ms : List Mut} {B : Book} {p : List Bool}
    (hB : Recordeds Unit01 N (Book.new n) (cs ++ [.calculate i ps ms]) B) (hf : flags (List.replicate n false) (cs ++ [.calculate i ps ms]) = some p) :
    ∃ s v s', calls (triFun g fl z I bs bf) (newParallel n k) cs = some s ∧ calculate (triFun g fl z I bs bf) s i ps ms = some (v, s') ∧
      ps.length = N ∧ (∀ p ∈ ps, Unit01 p) ∧
      ∃ ops m d, Hist I.w I.h ops ↑(pix fl I ps) m ∧ exec g fl I.w I.h ops = some d ∧ evalTris fl z I bs (iterTriangles d) = some v := by
  have L := tri_laws (z := z) (bf := bf) R A hI hb hb' hN
  obtain ⟨B1, hB1, hlast⟩ := recordeds_snoc hB
  unfold flags at hf
  rw [List.foldlM_append] at hf
  simp only [Option.bind_eq_bind, Option.bind_eq_some_iff] at hf
  obtain ⟨p1, hf1, hf2⟩ := hf
  simp only [List.foldlM_cons, List.foldlM_nil, Option.bind_eq_bind, Option.bind_eq_some_iff] at hf2
  obtain ⟨p2, hf2, -⟩ := hf2
  obtain ⟨s, hs, I1, J1⟩ := BookInv.calls L cs (s := newParallel n k) hk (BookInv.new n k) (FlagInv.new n k) (range_new n k).1 (range_new n k).2 hB1 hf1
  obtain ⟨-, O⟩ := (FlagInv.new n k).calls cs hf1 hs
  obtain ⟨r1, -, -⟩ := range_calls cs hk (range_new n k).1 (range_new n k).2 O hs
  obtain ⟨x, hx, -⟩ := I1.call L J1 r1 hlast hf2
  simp only [Alg.call, Option.map_eq_some_iff] at hx
  obtain ⟨⟨v, s'⟩, hv, -⟩ := hx
  obtain ⟨id, d, hid, -, hset, rep⟩ := I1.setup L hlast
  obtain ⟨id', d', h1, h2, h3, h4⟩ := c35_triangles hs hv
  rw [hid] at h1
  cases h1
  rw [hset] at h3
  cases h3
  obtain ⟨u, len, ops, m, d0, H, e, st⟩ := rep
  exact ⟨s, v, s', hs, hv, len, u, ops, m, d0, H, e, by rw [← strip_iter st]; exact h4⟩

theorem vlist_perm {t t' : Tri} (hn : NonDegenerate t) (hn' : NonDegenerate t') (h : verts t = verts t') : (vlist t).Perm (vlist t') := by
  have nd : ∀ {t : Tri}, NonDegenerate t → (vlist t).Nodup := by
    intro t h
    obtain ⟨a, b, c⟩ := nondeg_ne (a := t.a) (b := t.b) (c := t.c) h
    simp [vlist, a, b, c]
  have e : ∀ t : Tri, (vlist t).toFinset = verts t := by intro t; simp [vlist, verts]
  refine List.perm_of_nodup_nodup_toFinset_eq (nd hn) (nd hn') ?_
  rw [e, e, h]

theorem sumsOf_perm {a b : List Pixel} (h : a.Perm b) : sumsOf a = sumsOf b := by
  unfold sumsOf
  rw [h.length_eq, (h.map _).sum_eq, (h.map _).sum_eq, (h.map _).sum_eq, (h.map _).sum_eq]

theorem map_perm_of {α β γ : Type} {f : α → β} {k : α → γ} {T T' : List α} (h : (T.map f).Perm (T'.map f))
    (hk : ∀ t ∈ T ++ T', ∀ t' ∈ T ++ T', f t = f t' → k t = k t') : (T.map k).Perm (T'.map k) := by
  classical
  cases T with
  | nil =>
    have : T' = [] := by simpa using h.length_eq.symm
    rw [this]
  | cons t0 T =>
    let φ : β → γ := fun y => if hy : ∃ t ∈ t0 :: T ++ T', f t = y then k hy.choose else k t0
    have hφ : ∀ t ∈ t0 :: T ++ T', φ (f t) = k t := by
      intro t ht
      have hy : ∃ t' ∈ t0 :: T ++ T', f t' = f t := ⟨t, ht, rfl⟩
      simp only [φ, dif_pos hy]
      exact hk _ hy.choose_spec.1 _ ht hy.choose_spec.2
    have e1 : (t0 :: T).map k = ((t0 :: T).map f).map φ := by
      rw [List.map_map]
      exact List.map_congr_left fun t ht => (hφ t (List.mem_append_left _ ht)).symm
    have e2 : T'.map k = (T'.map f).map φ := by
      rw [List.map_map]
      exact List.map_congr_left fun t ht => (hφ t (List.mem_append_right _ ht)).symm
    rw [e1, e2]
    exact h.map φ

/-- Triangles with the same vertices have the same value and area. -/
theorem piece_verts (R : Rnd 53 fl) (z : ℚ) {t t' : Tri} (hn : NonDegenerate t) (hn' : NonDegenerate t') (h : verts t = verts t') :
    sumsDiff fl (sumsOf (triPixels fl z I t)) = sumsDiff fl (sumsOf (triPixels fl z I t')) := by
  have p := vlist_perm hn hn' h
  have q := c31_vertex_order (fl := fl) (fun a b => R.mono a b) z p
  have r : (triPixels fl z I t).Perm (triPixels fl z I t') := q.map (pixelOf fl I)
  rw [sumsOf_perm r]

theorem area_verts {t t' : Tri} (hn : NonDegenerate t) (hn' : NonDegenerate t') (h : verts t = verts t') : area t = area t' := by
  have p := vlist_perm hn hn' h
  obtain ⟨a, b, c⟩ := t
  obtain ⟨a', b', c'⟩ := t'
  unfold area
  simp only [vlist] at p ⊢
  have ha := p.mem_iff (a := a)
  have hb := p.mem_iff (a := b)
  have hc := p.mem_iff (a := c)
  obtain ⟨n1, n2, n3⟩ := nondeg_ne (a := a) (b := b) (c := c) hn
  simp only [List.mem_cons, true_or, or_true, List.not_mem_nil, or_false, true_iff] at ha hb hc
  have key : area2 a b (loc c) = area2 a' b' (loc c') ∨ area2 a b (loc c) = - area2 a' b' (loc c') := by
    rcases ha with rfl | rfl | rfl <;> rcases hb with rfl | rfl | rfl <;> rcases hc with rfl | rfl | rfl <;>
      first
      | exact absurd rfl n1
      | exact absurd rfl n2
      | exact absurd rfl n3
      | (left; unfold area2 loc; push_cast; ring1)
      | (right; unfold area2 loc; push_cast; ring1)
  rcases key with h | h <;> rw [h]
  rw [abs_neg]

/-- **C40** (partial: under `Arith`, in general position): the triangles the incremental evaluation adds up are, with their values and
areas, those of a triangulation built afresh from the points, in some order; in exact arithmetic the fitness is the same. -/
theorem c40_full_evaluation_partial (R : Rnd 53 fl) (A : ∀ ops, Arith g fl I.w I.h ops) (hI : I.OK) (hb : 1 ≤ bs) (hb' : bs ≤ 16) {N : Nat} (hN : N ≤ 32767)
    {n k : Nat} (hk : 1 ≤ k) {cs : List Call} {i : Nat} {ps : List NP} {ms : List Mut} {B : Book} {p : List Bool}
    (hB : Recordeds Unit01 N (Book.new n) (cs ++ [.calculate i ps ms]) B) (hf : flags (List.replicate n false) (cs ++ [.calculate i ps ms]) = some p)
    (gp : GeneralPosition (fun v => v ∈ pix fl I ps ∨ IsVertex (newSuperTriangle I.w I.h) v)) :
    ∃ s v s' T d, calls (triFun g fl z I bs bf) (newParallel n k) cs = some s ∧ calculate (triFun g fl z I bs bf) s i ps ms = some (v, s') ∧
      evalTris fl z I bs T = some v ∧ exec g fl I.w I.h ((pix fl I ps).map .ins) = some d ∧ (T.map verts).Perm ((iterTriangles d).map verts) ∧
      (T.map fun t => (triValue fl z I bs t, areaTerm fl t)).Perm ((iterTriangles d).map fun t => (triValue fl z I bs t, areaTerm fl t)) ∧
      ((∀ x, fl x = x) → evalTris fl z I bs (iterTriangles d) = some v) := by
  obtain ⟨s, v, s', hs, hv, len, u, ops, m, d0, H, e, ev⟩ := c40_own_points_partial (z := z) (bf := bf) R A hI hb hb' hN hk hB hf
  have hw : I.w ≤ 32767 := (A []).size.w2.trans (by norm_num)
  have hh : I.h ≤ 32767 := (A []).size.h2.trans (by norm_num)
  obtain ⟨m', H'⟩ := hist_ins (pix fl I ps) (Hist.nil (w := I.w) (h := I.h)) (pix_img R hw hh u) (by simp [pix]; omega)
  rw [List.nil_append, zero_add] at H'
  obtain ⟨d, e'⟩ := c06_c07_run_ok_partial (A _) H'
  have P := ((c09_history_independent_partial (A _) H e (A _) H' e' (fun _ => Iff.rfl)).2 (by simpa using gp)).2
  have M := mesh_of (A _) H e
  have M' := mesh_of (A _) H' e'
  have nd : ∀ t ∈ iterTriangles d0 ++ iterTriangles d, InImage I.w I.h t ∧ NonDegenerate t := by
    intro t ht
    rcases List.mem_append.mp ht with h | h
    · exact ⟨M.img t h, M.nondeg t h⟩
    · exact ⟨M'.img t h, M'.nondeg t h⟩
  refine ⟨s, v, s', iterTriangles d0, d, hs, hv, ev, e', P, ?_, ?_⟩
  · refine map_perm_of P ?_
    intro t ht t' ht' hv
    have a := nd t ht
    have a' := nd t' ht'
    rw [Prod.mk.injEq]
    constructor
    · unfold triValue
      rw [triSums_of R z hI (by omega) (by omega) hb hb' a.1 a.2, triSums_of R z hI (by omega) (by omega) hb hb' a'.1 a'.2,
        Option.map_some, Option.map_some, piece_verts R z a.2 a'.2 hv]
    · rw [areaTerm_eq R hw hh a.1, areaTerm_eq R hw hh a'.1, area_verts a.2 a'.2 hv]
  · intro hid
    have P1 : ((iterTriangles d0).map fun t => sumsDiff fl (sumsOf (triPixels fl z I t))).Perm
        ((iterTriangles d).map fun t => sumsDiff fl (sumsOf (triPixels fl z I t))) :=
      map_perm_of P fun t ht t' ht' hv => piece_verts R z (nd t ht).2 (nd t' ht').2 hv
    have P2 : ((iterTriangles d0).map area).Perm ((iterTriangles d).map area) :=
      map_perm_of P fun t ht t' ht' hv => area_verts (nd t ht).2 (nd t' ht').2 hv
    rw [evalTris_eq R z hI hb hb' hw hh M] at ev
    rw [evalTris_eq R z hI hb hb' hw hh M', ← ev]
    have fs : ∀ (l : List ℚ) (a : ℚ), l.foldl (fun s x => fl (s + x)) a = a + l.sum := by
      intro l
      induction l with
      | nil => intro a; simp
      | cons x l ih => intro a; rw [List.foldl_cons, ih, hid, List.sum_cons]; ring
    rw [fs, fs, P1.sum_eq, P2.sum_eq]

/-! ### C41 -/

/-- **C41** for the first `Calculate` of a function: the value is the uncached fitness of the triangulation built by inserting the points. -/
theorem c41_first_call {n k i : Nat} {ps : List NP} {ms : List Mut} {v : ℚ} {s' : Sys D Tri}
    (hv : calculate (triFun g fl z I bs bf) (newParallel n k) i ps ms = some (v, s')) :
    ∃ d, exec g fl I.w I.h ((pix fl I ps).map .ins) = some d ∧ evalTris fl z I bs (iterTriangles d) = some v := by
  obtain ⟨id, d, -, -, h, ev⟩ := c35_triangles (cs := []) rfl hv
  refine ⟨d, ?_, ev⟩
  unfold setup newParallel at h
  simp only [Option.bind_eq_bind, Option.bind_eq_some_iff] at h
  obtain ⟨d0, h1, h2⟩ := h
  rw [ins_run] at h2
  unfold exec
  have h1' : newDelaunay g I.w I.h = some d0 := h1
  rw [h1']
  exact h2

/-- **C41** is false of later calls: without a base the points are ignored, whatever they are. -/
theorem c41_points_ignored {n k : Nat} {cs : List Call} {s s' : Sys D Tri} {i id : Nat} {ps : List NP} {ms : List Mut} {v : ℚ} {d : D}
    (hs : calls (triFun g fl z I bs bf) (newParallel n k) cs = some s) (hid : s.slots[i]? = some id) (hd : (s.fns id).tri = some d)
    (hb : (s.fns id).base = none) (hv : calculate (triFun g fl z I bs bf) s i ps ms = some (v, s')) :
    evalTris fl z I bs (iterTriangles d) = some v := by
  obtain ⟨id', d', h1, -, h, ev⟩ := c35_triangles hs hv
  rw [hid] at h1
  cases h1
  unfold setup at h
  rw [hd, hb] at h
  cases h
  exact ev

end

example : ∃ v s', calculate tinyFun (newParallel 1 3) 0 tinyPoints [] = some (v, s') ∧
    ∃ d, exec (gridGeo ieee 4 4) (rne 53) 4 4 [.ins ⟨0, 0⟩, .ins ⟨4, 1⟩, .ins ⟨0, 4⟩, .ins ⟨3, 4⟩] = some d ∧
      evalTris (rne 53) 0 (checker (rne 53) 4 4) 1 (iterTriangles d) = some v := by
  have h : (calculate tinyFun (newParallel 1 3) 0 tinyPoints []).isSome = true := by decide +kernel
  obtain ⟨⟨v, s'⟩, h⟩ := Option.isSome_iff_exists.mp h
  obtain ⟨d, h1, h2⟩ := c41_first_call h
  have e : (pix (rne 53) (checker (rne 53) 4 4) tinyPoints).map Op.ins = [.ins ⟨0, 0⟩, .ins ⟨4, 1⟩, .ins ⟨0, 4⟩, .ins ⟨3, 4⟩] := by decide +kernel
  rw [e] at h1
  exact ⟨v, s', h, d, h1, h2⟩

/-- **C41** is false: the second call gets other points and returns the value of the first ones, above 3/4, where
evaluating the new ones gives less than 3/4. -/
theorem c41_second_call_false :
    ((calculate tinyFun (newParallel 1 3) 0 unitCorners []).bind fun x => (calculate tinyFun x.2 0 tinyPoints []).map fun y => decide (y.1 = x.1 ∧ 3 / 4 < y.1)) =
      some true ∧
    ((calculate tinyFun (newParallel 1 3) 0 tinyPoints []).map fun x => decide (x.1 < 3 / 4)) = some true := by
  constructor <;> decide +kernel

/-! ### C40: a concrete history, and where it fails -/

theorem tiny_recorded : Recordeds Unit01 4 (Book.new 2) (tinyCalls ++ [.calculate 1 tinyPoints tinyMut])
    ⟨[0, 1], fun j => if j = 1 then some tinyPoints else if j = 0 then some unitCorners else none, fun _ => none⟩ := by
  have u : ∀ p ∈ unitCorners, Unit01 p := by unfold Unit01; decide +kernel
  have M : Mutates Unit01 unitCorners tinyPoints tinyMut := by
    refine ⟨rfl, by decide, by decide +kernel, by decide +kernel, ?_, by unfold Unit01; decide +kernel⟩
    intro i h
    have h3 : (3 : Nat) ≠ i := h ⟨⟨1, 1⟩, ⟨3 / 4, 1⟩, 3⟩ (by simp [tinyMut])
    have h1 : (1 : Nat) ≠ i := h ⟨⟨1, 0⟩, ⟨1, 1 / 4⟩, 1⟩ (by simp [tinyMut])
    match i with
    | 0 | 2 => rfl
    | 1 => exact absurd rfl h1
    | 3 => exact absurd rfl h3
    | n + 4 => simp [tinyPoints, unitCorners]
  have e : (⟨[0, 1], fun j => if j = 1 then some tinyPoints else if j = 0 then some unitCorners else none, fun _ => none⟩ : Book) =
      Book.at { Book.at (Book.at (Book.new 2) 0 unitCorners) 1 unitCorners with base := fun k => if k = 1 then some 0 else none } 1 tinyPoints := by
    unfold Book.at Book.new
    simp only [Book.mk.injEq]
    refine ⟨rfl, ?_, ?_⟩
    · funext j; by_cases h : j = 1 <;> simp [h]
    · funext j; by_cases h : j = 1 <;> simp [h]
  rw [e]
  refine .cons (.first (id := 0) rfl rfl rfl u) (.cons .prepare (.cons (.update 0) (.cons (.first (id := 1) rfl rfl rfl u) (.cons .prepare (.cons (.update 1)
    (.cons (B' := { Book.at (Book.at (Book.new 2) 0 unitCorners) 1 unitCorners with base := fun k => if k = 1 then some 0 else none }) ?_ (.cons
      (.incr (id := 1) (b := 0) (qs := unitCorners) (os := unitCorners) rfl rfl rfl rfl M) (.nil _))))))))
  have := Recorded.setBase (Dom := Unit01) (N := 4) (B := Book.at (Book.at (Book.new 2) 0 unitCorners) 1 unitCorners) (i := 1) (j := 0) (id := 1) (b := 0) rfl rfl
  convert this using 2
  funext k
  simp only [Book.at, Book.new]
  by_cases h : k = 1
  · simp [h]
  · by_cases h0 : k = 0 <;> simp [h, h0]

theorem tiny_size : SizeOk 4 4 := ⟨by norm_num, by norm_num, by norm_num, by norm_num, by norm_num⟩

example : ∃ s v s', calls (triFun (gridGeo ⟨rne 53, rne 28, sqrt64⟩ 4 4) (fun x => x) 0 (checker (fun x => x) 4 4) 1 (fun _ _ => ⟨[], [], fun _ _ => [], fun _ => []⟩))
      (newParallel 2 1) tinyCalls = some s ∧
    calculate (triFun (gridGeo ⟨rne 53, rne 28, sqrt64⟩ 4 4) (fun x => x) 0 (checker (fun x => x) 4 4) 1 (fun _ _ => ⟨[], [], fun _ _ => [], fun _ => []⟩))
      s 1 tinyPoints tinyMut = some (v, s') := by
  obtain ⟨s, v, s', h1, h2, -⟩ := c40_own_points_partial (g := gridGeo ⟨rne 53, rne 28, sqrt64⟩ 4 4) (fl := fun x => x) (z := 0) (I := checker (fun x => x) 4 4)
    (bs := 1) (bf := fun _ _ => ⟨[], [], fun _ _ => [], fun _ => []⟩) (id_rnd 53) (fun _ => arith_wide tiny_size) (ofBytes_ok (id_rnd 53) 4 4 _) (by norm_num) (by norm_num)
    (N := 4) (by norm_num) (n := 2) (k := 1) (by norm_num) tiny_recorded (p := [false, true]) (by decide)
  exact ⟨s, v, s', h1, h2⟩

/-- An instance of the assumptions of `c40_full_evaluation_partial`. -/
example : ∃ v d, exec (gridGeo ⟨rne 53, rne 28, sqrt64⟩ 4 4) (fun x => x) 4 4 [.ins ⟨0, 0⟩, .ins ⟨4, 1⟩, .ins ⟨0, 4⟩, .ins ⟨3, 4⟩] = some d ∧
    evalTris (fun x => x) 0 (checker (fun x => x) 4 4) 1 (iterTriangles d) = some v ∧
    ∃ s s', calls (triFun (gridGeo ⟨rne 53, rne 28, sqrt64⟩ 4 4) (fun x => x) 0 (checker (fun x => x) 4 4) 1 (fun _ _ => ⟨[], [], fun _ _ => [], fun _ => []⟩))
      (newParallel 2 1) tinyCalls = some s ∧
    calculate (triFun (gridGeo ⟨rne 53, rne 28, sqrt64⟩ 4 4) (fun x => x) 0 (checker (fun x => x) 4 4) 1 (fun _ _ => ⟨[], [], fun _ _ => [], fun _ => []⟩))
      s 1 tinyPoints tinyMut = some (v, s') := by
  have e0 : pix (fun x => x) (checker (fun x => x) 4 4) tinyPoints = [⟨0, 0⟩, ⟨4, 1⟩, ⟨0, 4⟩, ⟨3, 4⟩] := by decide +kernel
  obtain ⟨s, v, s', T, d, h1, h2, -, h4, -, -, h7⟩ := c40_full_evaluation_partial (g := gridGeo ⟨rne 53, rne 28, sqrt64⟩ 4 4) (fl := fun x => x) (z := 0)
    (I := checker (fun x => x) 4 4) (bs := 1) (bf := fun _ _ => ⟨[], [], fun _ _ => [], fun _ => []⟩) (id_rnd 53) (fun _ => arith_wide tiny_size)
    (ofBytes_ok (id_rnd 53) 4 4 _) (by norm_num) (by norm_num) (N := 4) (by norm_num) (n := 2) (k := 1) (by norm_num) tiny_recorded (p := [false, true]) (by decide)
    (general_of (l := [⟨0, 0⟩, ⟨4, 1⟩, ⟨0, 4⟩, ⟨3, 4⟩, ⟨-6, -2⟩, ⟨2, 10⟩, ⟨10, -2⟩])
      (by
        rintro p (h | h)
        · rw [e0] at h
          simp only [List.mem_cons, List.not_mem_nil, or_false] at h ⊢
          tauto
        · have : newSuperTriangle (checker (fun x => x) 4 4).w (checker (fun x => x) 4 4).h = ⟨⟨-6, -2⟩, ⟨2, 10⟩, ⟨10, -2⟩⟩ := by decide +kernel
          rw [this] at h
          unfold IsVertex at h
          simp only [List.mem_cons, List.not_mem_nil, or_false]
          tauto)
      (by decide +kernel))
  rw [e0] at h4
  exact ⟨v, d, h4, h7 (fun _ => rfl), s, s', h1, h2⟩

/-- A 4 x 4 image with its dark and light halves on the two sides of a diagonal, in exact arithmetic. -/
def splitFun : Fun D Tri :=
  triFun (gridGeo ieee 4 4) id 0 (ofBytes id 4 4 fun x y => if x + y ≤ 3 then (0, 0, 0) else (255, 255, 255)) 1 (fun _ _ => ⟨[], [], fun _ _ => [], fun _ => []⟩)

/-- The corners with the second one moved. -/
def movedCorners : List NP := [⟨0, 0⟩, ⟨1 / 2, 1 / 4⟩, ⟨0, 1⟩, ⟨1, 1⟩]

/-- **C40** is false of points on one circle, even in exact arithmetic: moving a point to a corner of the square gives fitness 1, evaluating the same
four corners afresh gives 23/30. -/
theorem c40_cocircular_false :
    ((calls splitFun (newParallel 2 3) [.calculate 0 movedCorners [], .calculate 1 movedCorners [], .setBase 1 0]).bind fun s =>
      (calculate splitFun s 1 unitCorners [⟨⟨1 / 2, 1 / 4⟩, ⟨1, 0⟩, 1⟩]).map fun x => decide (x.1 = 1)) = some true ∧
    ((calculate splitFun (newParallel 2 3) 0 unitCorners []).map fun x => decide (x.1 = 23 / 30)) = some true := by
  constructor <;> decide +kernel

end Verif.Props

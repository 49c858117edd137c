import Verif.Small.Export
import Verif.Props.Polygonate
import Verif.Props.Complete

/-!
# The exported pictures (C80)

`TrianglesOnImage` on the result of `Triangulate`, and `PolygonsOnImage` on the result of `Polygonate`.
-/

namespace Verif.Props

open Verif.Tri Verif.Spec Verif.Float Verif.Raster Verif.Fit Verif.Alg Verif.Small
open Verif.Vor hiding Sorter
open Verif.Incr hiding trunc step run Entry

variable {g : Geo} {F : FloatOps} {fl : ℚ → ℚ} {vs : Vor.Sorter} {w h : Nat} {ps : List NP} {z : ℚ}

/-- A normalised point in the unit square that both roundings take back to the pixel point `q`. -/
def Restores (fl : ℚ → ℚ) (w h : Nat) (n : NP) (q : Pt) : Prop :=
  Unit01 n ∧ mathRound (fl (n.x * w)) = q.x ∧ mathRound (fl (n.y * h)) = q.y ∧ fastRound fl (fl (n.x * w)) = q.x ∧ fastRound fl (fl (n.y * h)) = q.y

theorem restore_one (R : Rnd 53 fl) {n : Nat} (h1 : 1 ≤ n) (h2 : n ≤ 8191) {x : ℤ} (x0 : 0 ≤ x) (x1 : x ≤ n) :
    (0 ≤ fl (x / n) ∧ fl (x / n) ≤ 1) ∧ mathRound (fl (fl (x / n) * n)) = x ∧ fastRound fl (fl (fl (x / n) * n)) = x := by
  have n1 : (1 : ℚ) ≤ n := by exact_mod_cast h1
  have n2 : (n : ℚ) ≤ 8191 := by exact_mod_cast h2
  have X0 : (0 : ℚ) ≤ x := by exact_mod_cast x0
  have X1 : (x : ℚ) ≤ n := by exact_mod_cast x1
  have np : (0 : ℚ) < n := by linarith
  have q0 : 0 ≤ (x : ℚ) / n := by positivity
  have q1 : (x : ℚ) / n ≤ 1 := by rw [div_le_one np]; exact X1
  have a0 : 0 ≤ fl (x / n) := R.nonneg q0
  have a1 : fl (x / n) ≤ 1 := by
    have := R.le_int (n := 1) (by norm_num) (x := (x : ℚ) / n) (by push_cast; exact q1)
    simpa using this
  have e1 := R.err ((x : ℚ) / n)
  rw [abs_of_nonneg q0] at e1
  have b : |fl (x / n) * n - x| ≤ 8191 / 2 ^ 53 := by
    have : fl (x / n) * n - x = (fl (x / n) - x / n) * n := by field_simp
    rw [this, abs_mul, abs_of_pos np]
    have : |fl ((x : ℚ) / n) - x / n| ≤ 1 / 2 ^ 53 := e1.trans (by gcongr)
    calc _ ≤ 1 / 2 ^ 53 * (8191 : ℚ) := by gcongr
      _ = 8191 / 2 ^ 53 := by ring
  have p0 : 0 ≤ fl (x / n) * n := by positivity
  have e2 := R.err (fl (x / n) * n)
  rw [abs_of_nonneg p0] at e2
  have p1 : fl (x / n) * n ≤ 8191 := by nlinarith
  have c : |fl (fl (x / n) * n) - x| ≤ 1 / 8 := by
    have t := abs_sub_le (fl (fl ((x : ℚ) / n) * n)) (fl (x / n) * n) x
    have : fl ((x : ℚ) / n) * n / 2 ^ 53 ≤ 8191 / 2 ^ 53 := by gcongr
    norm_num at this b t e2 ⊢
    linarith
  obtain ⟨c1, c2⟩ := abs_le.mp c
  have m : mathRound (fl (fl (x / n) * n)) = x := by
    have r0 : 0 ≤ fl (fl ((x : ℚ) / n) * n) := R.nonneg p0
    unfold mathRound
    rw [if_pos r0, Int.floor_eq_iff]
    constructor <;> linarith
  refine ⟨⟨a0, a1⟩, m, ?_⟩
  refine fastRound_of x0 ?_ ?_
  · have := R.mono ((x : ℤ) : ℚ) (fl (fl ((x : ℚ) / n) * n) + 1 / 2) (by linarith)
    rwa [R.int (n := x) (by rw [abs_of_nonneg x0]; norm_num; omega)] at this
  · have hm := R.mono (fl (fl ((x : ℚ) / n) * n) + 1 / 2) (((4 * x + 3 : ℤ) : ℚ) * (2 : ℚ) ^ (-2 : ℤ)) (by norm_num; linarith)
    rw [R.fix _ ⟨4 * x + 3, -2, by rw [abs_of_nonneg (by omega)]; norm_num; omega, rfl⟩] at hm
    norm_num at hm
    linarith

theorem toNorm_restores (R : Rnd 53 fl) (k : SizeOk w h) {q : Pt} (hq : 0 ≤ q.x ∧ q.x ≤ w ∧ 0 ≤ q.y ∧ q.y ≤ h) : Restores fl w h (toNorm fl w h q) q := by
  obtain ⟨a1, a2, a3⟩ := restore_one R k.w1 k.w2 hq.1 hq.2.1
  obtain ⟨b1, b2, b3⟩ := restore_one R k.h1 k.h2 hq.2.2.1 hq.2.2.2
  exact ⟨⟨a1, b1⟩, a2, b2, a3, b3⟩

/-- A picture `out` of shapes with the corners `P`: one entry per shape, in order, with a colour that is the average of a non-empty list of colours of pixels, and vertices
that are taken back to the corners. -/
def Picture (fl : ℚ → ℚ) (I : Img) (P : List (List Pt)) (out : List (List NP × Option RGB)) : Prop :=
  out.length = P.length ∧ ∀ (i : Nat) l, P[i]? = some l → ∃ ns c cols, out[i]? = some (ns, some c) ∧ List.Forall₂ (Restores fl I.w I.h) ns l ∧
    cols ≠ [] ∧ (∀ x ∈ cols, PixelOf I x) ∧ (cols.foldl (Avg.add fl) Avg.zero).average fl = some c

theorem average_some {l : List RGB} (hl : l ≠ []) : ∃ c, (l.foldl (Avg.add fl) Avg.zero).average fl = some c := by
  rw [foldl_add]
  unfold Avg.average
  simp only [Avg.zero, zero_add]
  rw [if_neg (by simpa using hl)]
  exact ⟨_, rfl⟩

theorem entry_picture (R : Rnd 53 fl) {I : Img} (k : SizeOk I.w I.h) {qs : List (Int × Int)} {l : List Pt} (hb : InBounds I.w I.h l)
    (hne : palette I qs l ≠ []) (hpx : ∀ c ∈ palette I qs l, PixelOf I c) :
    ∃ ns c cols, entry fl I qs l = (ns, some c) ∧ List.Forall₂ (Restores fl I.w I.h) ns l ∧
      cols ≠ [] ∧ (∀ x ∈ cols, PixelOf I x) ∧ (cols.foldl (Avg.add fl) Avg.zero).average fl = some c := by
  obtain ⟨c, hc⟩ := average_some (fl := fl) hne
  refine ⟨_, c, palette I qs l, by unfold entry; rw [hc], ?_, hne, hpx, hc⟩
  rw [List.forall₂_map_left_iff, List.forall₂_same]
  exact fun q hq => toNorm_restores R k (hb q hq)

/-- **C80**, polygons (partial: under `VArith`): whenever `Polygonate` returns, `PolygonsOnImage` on its result returns a picture: every polygon has a colour, and
its normalised vertices are taken back to the same pixels. -/
theorem c80_polygons_partial {I : Img} (A : ∀ ops, VArith g F I.w I.h ops) (S : SorterOK vs) (hu : ∀ p ∈ ps, Unit01 p) (hl : ps.length ≤ 32767)
    {P : List (List Pt)} (e : polygonate g F vs I.w I.h ps = some P) :
    ∃ out, polygonsOnImage F.r64 z I P = some out ∧ Picture F.r64 I P out := by
  have R := (A []).rnd
  have k := (A []).tri.size
  obtain ⟨h1, -⟩ := c79_inside_partial A S hu hl e
  have hb : ∀ l ∈ P, InBounds I.w I.h l := fun l hl q hq =>
    ⟨((h1 l hl).2.2 q hq).1.1, ((h1 l hl).2.2 q hq).1.2, ((h1 l hl).2.2 q hq).2.1, ((h1 l hl).2.2 q hq).2.2⟩
  obtain ⟨out, o1, o2, o3⟩ := c54_polygons R z k.w1 k.h1 (k.w2.trans (by norm_num)) (k.h2.trans (by norm_num)) hb
  refine ⟨out, o1, o2, ?_⟩
  intro i l hi
  obtain ⟨a1, a2, a3⟩ := o3 i l hi
  have hm := List.mem_of_getElem? hi
  obtain ⟨ns, c, cols, b1, b2⟩ := entry_picture R k (hb l hm) (a2 (h1 l hm).1) a3
  exact ⟨ns, c, cols, by rw [a1, b1], b2⟩

/-! ### Triangles -/

/-- What is assumed of the library: indices of points given to it. -/
def LibOK (lib : List Pt → List Nat) : Prop := ∀ l, ∀ k ∈ lib l, k < l.length

/-- The triangle with number `i` of the list `L` of indices. -/
def nthTriple (L : List Nat) (i : Nat) : Option (Nat × Nat × Nat) := do
  return (← L[3 * i]?, ← L[3 * i + 1]?, ← L[3 * i + 2]?)

/-- The points that are exported. -/
theorem groupPoint_img (R : Rnd 53 fl) (k : SizeOk w h) {p : NP} (hp : Unit01 p) :
    0 ≤ (groupPoint fl w h p).x ∧ (groupPoint fl w h p).x ≤ w ∧ 0 ≤ (groupPoint fl w h p).y ∧ (groupPoint fl w h p).y ≤ h := by
  have key : ∀ (n : Nat) (x : ℚ), n ≤ 8191 → 0 ≤ x → x ≤ 1 → 0 ≤ mathRound (fl (x * n)) ∧ mathRound (fl (x * n)) ≤ n := by
    intro n x hn x0 x1
    have n0 : (0 : ℚ) ≤ n := by positivity
    have a0 : 0 ≤ fl (x * n) := R.nonneg (by positivity)
    have a1 : fl (x * n) ≤ (n : ℤ) := R.le_int (by rw [abs_of_nonneg (by positivity)]; norm_num; omega) (by push_cast; nlinarith)
    push_cast at a1
    exact mathRound_in (n := n) (x := fl (x * n)) (by linarith) (by linarith)
  obtain ⟨a, b⟩ := key w p.x k.w2 hp.1.1 hp.1.2
  obtain ⟨c, d⟩ := key h p.y k.h2 hp.2.1 hp.2.2
  exact ⟨a, b, c, d⟩

theorem roundPoint_group (R : Rnd 53 fl) (k : SizeOk w h) {p : NP} (hp : Unit01 p) : roundPoint fl w h p = groupPoint fl w h p := by
  obtain ⟨a, b, c, d⟩ := groupPoint_img R k hp
  have hw := k.w2
  have hh := k.h2
  unfold groupPoint at a b c d
  unfold roundPoint groupPoint
  simp only at a b c d
  rw [w16_id (by omega) (by omega), w16_id (by omega) (by omega)]

/-- **C80**, triangles: `Triangulate` returns one triangle for each three indices of the library, with the pixel points they stand for as vertices. -/
theorem c80_triangulate (lib : List Pt → List Nat) (L : LibOK lib) (fl : ℚ → ℚ) (w h : Nat) (ps : List NP) :
    ∃ T, triangulate lib fl w h ps = some T ∧ T.length = (lib (ps.map (groupPoint fl w h))).length / 3 ∧
      ∀ (i : Nat) t, T[i]? = some t → ∃ a b c p q r, nthTriple (lib (ps.map (groupPoint fl w h))) i = some (a, b, c) ∧
        ps[a]? = some p ∧ ps[b]? = some q ∧ ps[c]? = some r ∧ t = ⟨groupPoint fl w h p, groupPoint fl w h q, groupPoint fl w h r⟩ := by
  unfold triangulate
  simp only
  set G := ps.map (groupPoint fl w h)
  set X := lib G
  have one : ∀ j, j < X.length → ∃ k p, X[j]? = some k ∧ ps[k]? = some p ∧ X[j]?.bind (G[·]?) = some (groupPoint fl w h p) := by
    intro j hj
    have hk : X[j] < G.length := L G _ (List.getElem_mem hj)
    have hk' : X[j] < ps.length := by simpa [G] using hk
    refine ⟨X[j], ps[X[j]], List.getElem?_eq_getElem hj, List.getElem?_eq_getElem hk', ?_⟩
    rw [List.getElem?_eq_getElem hj, Option.bind_some, List.getElem?_eq_getElem hk]
    simp [G]
  have tri : ∀ i ∈ List.range (X.length / 3), ∃ a b c p q r, nthTriple X i = some (a, b, c) ∧ ps[a]? = some p ∧ ps[b]? = some q ∧ ps[c]? = some r ∧
      pickTriangle G X i = some ⟨groupPoint fl w h p, groupPoint fl w h q, groupPoint fl w h r⟩ := by
    intro i hi
    rw [List.mem_range] at hi
    obtain ⟨a, p, a1, a2, a3⟩ := one (3 * i) (by omega)
    obtain ⟨b, q, b1, b2, b3⟩ := one (3 * i + 1) (by omega)
    obtain ⟨c, r, c1, c2, c3⟩ := one (3 * i + 2) (by omega)
    refine ⟨a, b, c, p, q, r, by simp [nthTriple, a1, b1, c1], a2, b2, c2, ?_⟩
    unfold pickTriangle
    rw [a3, b3, c3]
    rfl
  have : Nonempty NP := ⟨⟨0, 0⟩⟩
  choose! fa fb fc fp fq fr f1 f2 f3 f4 f5 using tri
  refine ⟨_, mapM_eq _ (fun i => ⟨groupPoint fl w h (fp i), groupPoint fl w h (fq i), groupPoint fl w h (fr i)⟩) _ f5, by simp, ?_⟩
  intro i t hi
  rw [List.getElem?_map] at hi
  obtain ⟨j, hj, rfl⟩ := Option.map_eq_some_iff.mp hi
  have hlt : i < X.length / 3 := by
    by_contra hc
    rw [List.getElem?_eq_none (by simpa using hc)] at hj
    cases hj
  rw [List.getElem?_eq_getElem (by simpa using hlt), List.getElem_range] at hj
  cases hj
  have hm : i ∈ List.range (X.length / 3) := List.mem_range.mpr hlt
  exact ⟨_, _, _, _, _, _, f1 i hm, f2 i hm, f3 i hm, f4 i hm, rfl⟩

/-- **C80**, triangles: for points of the unit square, `TrianglesOnImage` on the result of `Triangulate` returns a picture. -/
theorem c80_triangles {lib : List Pt → List Nat} (L : LibOK lib) (R : Rnd 53 fl) {I : Img} (k : SizeOk I.w I.h) (hu : ∀ p ∈ ps, Unit01 p) :
    ∃ T out, triangulate lib fl I.w I.h ps = some T ∧ trianglesOnImage fl z I T = some out ∧ Picture fl I (T.map vlist) out := by
  obtain ⟨T, h1, h2, h3⟩ := c80_triangulate lib L fl I.w I.h ps
  have hb : ∀ t ∈ T, InBounds I.w I.h (vlist t) := by
    intro t ht
    obtain ⟨i, hi, rfl⟩ := List.mem_iff_getElem.mp ht
    obtain ⟨a, b, c, p, q, r, -, a2, b2, c2, e⟩ := h3 i _ (List.getElem?_eq_getElem hi)
    rw [e]
    intro v hv
    simp only [vlist, List.mem_cons, List.not_mem_nil, or_false] at hv
    rcases hv with rfl | rfl | rfl
    · exact groupPoint_img R k (hu p (List.mem_of_getElem? a2))
    · exact groupPoint_img R k (hu q (List.mem_of_getElem? b2))
    · exact groupPoint_img R k (hu r (List.mem_of_getElem? c2))
  obtain ⟨out, o1, o2, o3⟩ := c53_triangles R z k.w1 k.h1 (k.w2.trans (by norm_num)) (k.h2.trans (by norm_num)) hb
  refine ⟨T, out, h1, o1, by simpa using o2, ?_⟩
  intro i l hi
  rw [List.getElem?_map] at hi
  obtain ⟨t, ht, rfl⟩ := Option.map_eq_some_iff.mp hi
  obtain ⟨a1, a2, a3⟩ := o3 i t ht
  obtain ⟨ns, c, cols, b1, b2⟩ := entry_picture R k (hb t (List.mem_of_getElem? ht)) a2 a3
  exact ⟨ns, c, cols, by rw [a1, b1], b2⟩

/-- `t` is one of the triangles the library reports for the points `l`. -/
def Reports (lib : List Pt → List Nat) (l : List Pt) (t : Tri) : Prop :=
  ∃ i a b c, nthTriple (lib l) i = some (a, b, c) ∧ l[a]? = some t.a ∧ l[b]? = some t.b ∧ l[c]? = some t.c

/-- A Delaunay triangulation: its triangles are triangles with no point inside their circle, and all triangles with all other points outside their circle are among them. -/
structure LibDelaunay (lib : List Pt → List Nat) : Prop where
  ok : LibOK lib
  sound : ∀ l t, Reports lib l t → NonDegenerate t ∧ ∀ v ∈ l, ¬ InsideCircle t v
  complete : ∀ (l : List Pt) (t : Tri) (o : P2), t.a ∈ l → t.b ∈ l → t.c ∈ l → NonDegenerate t → Centre t o →
    (∀ v ∈ l, ¬ IsVertex t v → d2 o t.a < d2 o v) → ∃ t', Reports lib l t' ∧ verts t' = verts t

/-- What `Triangulate` returns is what the library reports. -/
theorem triangulate_reports {lib : List Pt → List Nat} (L : LibOK lib) {T : List Tri} (e : triangulate lib fl w h ps = some T) (t : Tri) :
    t ∈ T ↔ Reports lib (ps.map (groupPoint fl w h)) t := by
  obtain ⟨T', e', h1, h2⟩ := c80_triangulate lib L fl w h ps
  rw [e] at e'
  cases e'
  constructor
  · intro ht
    obtain ⟨i, hi, rfl⟩ := List.mem_iff_getElem.mp ht
    obtain ⟨a, b, c, p, q, r, a1, a2, b2, c2, e⟩ := h2 i _ (List.getElem?_eq_getElem hi)
    exact ⟨i, a, b, c, a1, by simp [a2, e], by simp [b2, e], by simp [c2, e]⟩
  · rintro ⟨i, a, b, c, a1, a2, b2, c2⟩
    have hi : i < T.length := by
      rw [h1]
      by_contra hc
      have : (lib (ps.map (groupPoint fl w h)))[3 * i + 2]? = none := List.getElem?_eq_none (by omega)
      simp [nthTriple, this] at a1
    obtain ⟨a', b', c', p, q, r, d1, d2, d3, d4, e⟩ := h2 i _ (List.getElem?_eq_getElem hi)
    rw [d1] at a1
    cases a1
    simp only [List.getElem?_map, d2, d3, d4, Option.map_some, Option.some.injEq] at a2 b2 c2
    have : T[i] = t := by rw [e, a2, b2, c2]
    rw [← this]
    exact List.getElem_mem hi

theorem centre_eq {t : Tri} {o : P2} (hc : Centre t o) {v : Pt} (hv : IsVertex t v) : d2 o v = d2 o t.a := by
  rcases hv with rfl | rfl | rfl
  · rfl
  · exact hc.1.symm
  · exact hc.2.symm

/-- **C80**, the exported and the evaluated triangles (partial: under `Arith`): let the triangulation hold the points of the point group, none with the exceptional
coordinate, and let no further point or vertex of the bounding triangle be on the circle of `t`.  Then `t` is evaluated if and only if it is exported and no vertex of
the bounding triangle is in its circle. -/
theorem c80_evaluated_partial {lib : List Pt → List Nat} (L : LibDelaunay lib) {ops : List Op} {m : Nat} {d : D} (A : Arith g F.r64 w h ops) (R : Rnd 53 F.r64) (S : Stores F)
    (hu : ∀ p ∈ ps, Unit01 p) (hp : ∀ p ∈ ps, F.r64 (p.x * w) ≠ 1 / 2 - 1 / 2 ^ 54 ∧ F.r64 (p.y * h) ≠ 1 / 2 - 1 / 2 ^ 54)
    (H : Hist w h ops ↑(ps.map fun p => createPoint F.r64 p w h) m) (e : exec g F.r64 w h ops = some d)
    {T : List Tri} (eT : triangulate lib F.r64 w h ps = some T) {t : Tri} {o : P2} (hn : NonDegenerate t) (hc : Centre t o)
    (hs : ∀ v, IsVertex t v → v ∈ ps.map fun p => createPoint F.r64 p w h)
    (hg : ∀ v, (v ∈ (ps.map fun p => createPoint F.r64 p w h) ∨ IsVertex (newSuperTriangle w h) v) → d2 o v = d2 o t.a → IsVertex t v) :
    (∃ t' ∈ iterTriangles d, verts t' = verts t) ↔
      (∃ t' ∈ T, verts t' = verts t) ∧ ∀ v, IsVertex (newSuperTriangle w h) v → d2 o t.a ≤ d2 o v := by
  have k := A.size
  have same : (ps.map fun p => createPoint F.r64 p w h) = ps.map (groupPoint F.r64 w h) := List.map_congr_left fun p hp' => by
    rw [← roundPoint_group R k (hu p hp'), roundPoint_eq R S k (hu p hp') (hp p hp').1 (hp p hp').2]
  rw [c74_iff_partial A H e ⟨hs _ (Or.inl rfl), hs _ (Or.inr (Or.inl rfl)), hs _ (Or.inr (Or.inr rfl))⟩ hn hc hg]
  simp only [triangulate_reports L.ok eT]
  rw [same] at hs hg
  simp only [Multiset.mem_coe, same]
  constructor
  · intro ha
    refine ⟨L.complete _ t o (hs _ (Or.inl rfl)) (hs _ (Or.inr (Or.inl rfl))) (hs _ (Or.inr (Or.inr rfl))) hn hc ?_, fun v hv => ha v (Or.inr hv)⟩
    exact fun v hv hnv => lt_of_le_of_ne (ha v (Or.inl hv)) fun e => hnv (hg v (Or.inl hv) e.symm)
  · rintro ⟨⟨t', ht', hv'⟩, hb⟩ v (hv | hv)
    · have eq : ∀ v, IsVertex t' v → d2 o v = d2 o t.a := fun v hv => centre_eq hc (by rwa [← mem_verts, hv', mem_verts] at hv)
      have hc' : Centre t' o := ⟨by rw [eq _ (Or.inl rfl), eq _ (Or.inr (Or.inl rfl))], by rw [eq _ (Or.inl rfl), eq _ (Or.inr (Or.inr rfl))]⟩
      by_contra hlt
      exact (L.sound _ t' ht').2 v hv ⟨o, hc', by rw [eq _ (Or.inl rfl)]; exact not_le.mp hlt⟩
    · exact hb v hv

/-! ### A library -/

/-- All triples of indices of a list of length `n`. -/
def triples (n : Nat) : List (Nat × Nat × Nat) :=
  (List.range n).flatMap fun a => (List.range n).flatMap fun b => (List.range n).map fun c => (a, b, c)

/-- A triple of indices of a triangle whose circle has no point inside. -/
def Good (l : List Pt) (x : Nat × Nat × Nat) : Prop :=
  ∃ p q r, l[x.1]? = some p ∧ l[x.2.1]? = some q ∧ l[x.2.2]? = some r ∧ NonDegenerate ⟨p, q, r⟩ ∧ ∀ v ∈ l, ¬ InsideCircle ⟨p, q, r⟩ v

open Classical in
/-- The indices of all of them. -/
noncomputable def bruteLib (l : List Pt) : List Nat := ((triples l.length).filter fun x => Good l x).flatMap fun x => [x.1, x.2.1, x.2.2]

theorem nthTriple_flat (X : List (Nat × Nat × Nat)) (i : Nat) : nthTriple (X.flatMap fun x => [x.1, x.2.1, x.2.2]) i = X[i]? := by
  induction X generalizing i with
  | nil => simp [nthTriple]
  | cons x X ih =>
    cases i with
    | zero => simp [nthTriple]
    | succ i =>
      rw [List.getElem?_cons_succ, ← ih]
      simp [nthTriple, Nat.mul_add]

theorem mem_triples {n a b c : Nat} : (a, b, c) ∈ triples n ↔ a < n ∧ b < n ∧ c < n := by
  simp [triples]

open Classical in
/-- The assumptions on the library are met by this one. -/
theorem bruteLib_ok : LibDelaunay bruteLib := by
  have rep : ∀ l t, Reports bruteLib l t ↔ ∃ a b c, l[a]? = some t.a ∧ l[b]? = some t.b ∧ l[c]? = some t.c ∧ Good l (a, b, c) := by
    intro l t
    unfold Reports bruteLib
    simp only [nthTriple_flat]
    constructor
    · rintro ⟨i, a, b, c, e, a1, b1, c1⟩
      exact ⟨a, b, c, a1, b1, c1, by simpa using (List.mem_filter.mp (List.mem_of_getElem? e)).2⟩
    · rintro ⟨a, b, c, a1, b1, c1, hg⟩
      have lt : ∀ {j : Nat} {v : Pt}, l[j]? = some v → j < l.length := fun {j v} hj => (List.getElem?_eq_some_iff.mp hj).1
      obtain ⟨i, hi⟩ := List.mem_iff_getElem?.mp (List.mem_filter (p := fun x => decide (Good l x)).mpr ⟨mem_triples.mpr ⟨lt a1, lt b1, lt c1⟩, (by simpa using hg : decide (Good l (a, b, c)) = true)⟩)
      exact ⟨i, a, b, c, hi, a1, b1, c1⟩
  refine ⟨?_, ?_, ?_⟩
  · intro l k hk
    unfold bruteLib at hk
    obtain ⟨⟨a, b, c⟩, hx, hk⟩ := List.mem_flatMap.mp hk
    obtain ⟨ha, hb, hc⟩ := mem_triples.mp (List.mem_filter.mp hx).1
    simp only [List.mem_cons, List.not_mem_nil, or_false] at hk
    rcases hk with rfl | rfl | rfl <;> assumption
  · intro l t ht
    obtain ⟨a, b, c, a1, b1, c1, p, q, r, a2, b2, c2, hg⟩ := (rep l t).mp ht
    simp only [a1, b1, c1, Option.some.injEq] at a2 b2 c2
    subst a2 b2 c2
    exact hg
  · intro l t o ha hb hc hn hcen ho
    obtain ⟨a, a1⟩ := List.mem_iff_getElem?.mp ha
    obtain ⟨b, b1⟩ := List.mem_iff_getElem?.mp hb
    obtain ⟨c, c1⟩ := List.mem_iff_getElem?.mp hc
    refine ⟨t, (rep l t).mpr ⟨a, b, c, a1, b1, c1, t.a, t.b, t.c, a1, b1, c1, hn, ?_⟩, rfl⟩
    rintro v hv ⟨o', hc', hlt⟩
    have : o' = o := centre_unique hn hc' hcen
    subst this
    by_cases hi : IsVertex t v
    · exact absurd (centre_eq hcen hi) hlt.ne
    · exact absurd (ho v hv hi) (not_lt.mpr hlt.le)

/-! ### Examples -/

/-- Three points, nearly on a line. -/
def flatDemo : List NP := [⟨0, 0⟩, ⟨1 / 2, 1 / 32⟩, ⟨1, 0⟩]

theorem flatDemo_group : flatDemo.map (groupPoint (rne 53) 40 30) = [⟨0, 0⟩, ⟨20, 1⟩, ⟨40, 0⟩] := by decide +kernel

/-- **C80, the exported and the evaluated triangles differ**: for the three points of `flatDemo` on a 40 x 30 image every Delaunay library makes `Triangulate` return the
triangle of the three points, but the triangulation the algorithm evaluates reports no triangle, because a vertex of the bounding triangle is inside the circle. -/
theorem c80_evaluated_false : (∀ p ∈ flatDemo, Unit01 p) ∧ (∀ lib, LibDelaunay lib → ∃ T, triangulate lib (rne 53) 40 30 flatDemo = some T ∧
      ∃ t ∈ T, verts t = verts ⟨⟨0, 0⟩, ⟨20, 1⟩, ⟨40, 0⟩⟩) ∧
    (exec (gridGeo ieee 40 30) (rne 53) 40 30 (flatDemo.map fun p => .ins (createPoint (rne 53) p 40 30))).map iterTriangles = some [] := by
  refine ⟨?_, ?_, by decide +kernel⟩
  · intro p hp
    simp only [flatDemo, List.mem_cons, List.not_mem_nil, or_false] at hp
    rcases hp with rfl | rfl | rfl <;> (unfold Unit01; norm_num)
  · intro lib L
    obtain ⟨T, hT, -⟩ := c80_triangulate lib L.ok (rne 53) 40 30 flatDemo
    refine ⟨T, hT, ?_⟩
    simp only [triangulate_reports L.ok hT, flatDemo_group]
    refine L.complete _ ⟨⟨0, 0⟩, ⟨20, 1⟩, ⟨40, 0⟩⟩ ⟨20, -399 / 2⟩ (by decide) (by decide) (by decide) (by unfold NonDegenerate; decide +kernel)
      (by unfold Centre; decide +kernel) ?_
    intro v hv hn
    exfalso
    simpa [IsVertex] using (show ¬ IsVertex _ v from hn) (by simpa [IsVertex] using hv)

/-- A 40 x 30 image. -/
def exportImg : Img := ⟨40, 30, fun x y => ⟨((x + y) % 7 : Nat) / 7, 0, 1⟩⟩

example : ∃ out, polygonsOnImage (rne 53) 1 exportImg [[⟨20, 14⟩, ⟨20, 0⟩, ⟨40, 0⟩, ⟨40, 28⟩], [⟨0, 28⟩, ⟨0, 0⟩, ⟨20, 0⟩, ⟨20, 14⟩], [⟨0, 28⟩, ⟨20, 14⟩, ⟨40, 28⟩]] = some out ∧
    Picture (rne 53) exportImg [[⟨20, 14⟩, ⟨20, 0⟩, ⟨40, 0⟩, ⟨40, 28⟩], [⟨0, 28⟩, ⟨0, 0⟩, ⟨20, 0⟩, ⟨20, 14⟩], [⟨0, 28⟩, ⟨20, 14⟩, ⟨40, 28⟩]] out :=
  c80_polygons_partial (F := ieee) (I := exportImg) (fun _ => varith_ieee demo_size (by decide)) goSort_ok polyDemo_unit (by decide) polyDemo_run

example : ∃ T out, triangulate bruteLib (rne 53) 40 30 polyDemo = some T ∧ trianglesOnImage (rne 53) 1 exportImg T = some out ∧
    Picture (rne 53) exportImg (T.map vlist) out :=
  c80_triangles (I := exportImg) bruteLib_ok.ok (rne_rnd (by norm_num)) demo_size polyDemo_unit

/-- The triangle of `polyDemo` is exported. -/
example : ∃ T, triangulate bruteLib (rne 53) 40 30 polyDemo = some T ∧ ∃ t' ∈ T, verts t' = verts demoTri := by
  obtain ⟨d, e⟩ := demo_exec
  obtain ⟨h1, h2, h3, h4⟩ := demo_circle
  obtain ⟨T, hT, -⟩ := c80_triangulate bruteLib bruteLib_ok.ok (rne 53) 40 30 polyDemo
  have H := demo_hist
  rw [← polyDemo_bag] at H h1 h4
  have := (c80_evaluated_partial (F := ieee) bruteLib_ok demo_arith (rne_rnd (by norm_num)) stores_ieee polyDemo_unit (by decide +kernel) H e hT h2 h3 ?_ ?_).mp
    (c74_complete_partial demo_arith H e h1 h2 h3 h4)
  · exact ⟨T, hT, this.1⟩
  · rintro v (rfl | rfl | rfl)
    exacts [h1.1, h1.2.1, h1.2.2]
  · intro v hv he
    by_contra hn
    exact absurd he (h4 v hv hn).ne'

end Verif.Props

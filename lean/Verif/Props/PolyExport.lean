import Verif.Props.Exported

/-!
# The exported picture of polygons and the reported fitness (C97)

The counterpart of C96 for polygons: the algorithm evaluates the polygons of its own incremental Voronoi diagram, the program exports those that `Polygonate` computes from
scratch, rounded by another routine, with the colours of `PolygonsOnImage`.
-/

namespace Verif.Props

open Verif.Tri Verif.Spec Verif.Float Verif.Raster Verif.Fit Verif.Small Verif.Alg
open Verif.Vor hiding Sorter
open Verif.Incr hiding trunc step run Entry

/-- The quality of a picture made of polygons with colours: one minus the squared error per channel and pixel of the image. -/
noncomputable def polyQuality (z : ℚ) (I : Img) (P : List (List Pt)) (cs : List RGB) : ℚ :=
  1 - pictureErr I (fun ps q => q ∈ DDAPolygon (rne 53) z ps) (P.zip cs) / (3 * (I.w * I.h))

/-- The points whose exported polygons are compared with the evaluated ones: no two corners of a cell are indistinguishable in direction, no coordinate of a point or of a
corner is the largest double below 1/2, and of the exported polygons no two have a common pixel, and no three vertices of a fan triangle are on a line. -/
structure Tame (g : Geo) (vs : Vor.Sorter) (w h : Nat) (z : ℚ) (ps : List NP) : Prop where
  clash : ∀ q ∈ ps.map fun p => createPoint (rne 53) p w h, ¬ CellClash ieee w h ↑(ps.map fun p => createPoint (rne 53) p w h) q
  off : ∀ p ∈ ps, rne 53 (p.x * w) ≠ 1 / 2 - 1 / 2 ^ 54 ∧ rne 53 (p.y * h) ≠ 1 / 2 - 1 / 2 ^ 54
  corners : ∀ ops m v, Hist w h ops ↑(ps.map fun p => createPoint (rne 53) p w h) m → vExec g ieee vs w h ops = some v →
    ∀ l ∈ iterPolygons v, ∀ c ∈ l, c.1 ≠ 1 / 2 - 1 / 2 ^ 54 ∧ c.2 ≠ 1 / 2 - 1 / 2 ^ 54
  fans : ∀ P, polygonate g ieee vs w h ps = some P → ∀ l ∈ P, ∀ t ∈ fan l, NonDegenerate t
  apart : ∀ P, polygonate g ieee vs w h ps = some P → (P.flatMap (DDAPolygon (rne 53) z)).Nodup

/-- A permutation of the images comes from a permutation. -/
theorem perm_map_lift {α β : Type} {f : α → β} : ∀ {l : List β} {m : List α}, l.Perm (m.map f) → ∃ m' : List α, m'.Perm m ∧ m'.map f = l
  | [], m, h => by
    have : m = [] := by simpa using h.length_eq.symm
    exact ⟨[], by rw [this], rfl⟩
  | b :: l, m, h => by
    obtain ⟨a, ha, rfl⟩ := List.mem_map.mp (h.subset (List.mem_cons_self ..))
    obtain ⟨s, t, rfl⟩ := List.append_of_mem ha
    have h' : l.Perm ((s ++ t).map f) := by
      have : ((s ++ a :: t).map f).Perm (f a :: (s ++ t).map f) := by
        rw [List.map_append, List.map_cons, List.map_append]
        exact List.perm_middle
      exact (h.trans this).cons_inv
    obtain ⟨m', p, e⟩ := perm_map_lift h'
    exact ⟨a :: m', (p.cons a).trans List.perm_middle.symm, by rw [List.map_cons, e]⟩

/-- There are no more polygons than lattice points of the image. -/
theorem polys_few {w h : Nat} {n : Nat} {L : List Pt} (hL : ∀ q ∈ L, InImg w h q) (hn : n ≤ L.toFinset.card) (hw : 3 ≤ w) (hh : 3 ≤ h) : n ≤ 2 * (w * h) := by
  have sub : L.toFinset ⊆ (Finset.range (w + 1) ×ˢ Finset.range (h + 1)).image fun p => (⟨p.1, p.2⟩ : Pt) := by
    intro q hq
    obtain ⟨a, b, c, d⟩ := hL q (List.mem_toFinset.mp hq)
    rw [Finset.mem_image]
    refine ⟨(q.x.toNat, q.y.toNat), ?_, ?_⟩
    · rw [Finset.mem_product, Finset.mem_range, Finset.mem_range]
      simp only
      omega
    · cases q
      simp only at a b c d ⊢
      rw [Int.toNat_of_nonneg a, Int.toNat_of_nonneg c]
  have c1 := (Finset.card_le_card sub).trans Finset.card_image_le
  rw [Finset.card_product, Finset.card_range, Finset.card_range] at c1
  nlinarith

section
variable {w h : Nat} {f : Nat → Nat → Fin 256 × Fin 256 × Fin 256} {g : Geo} {vs : Vor.Sorter} {ps : List NP} {ops : List Op} {m : Nat} {d : V} {z : ℚ} {bs N : Nat}
  {bf : V → V → VBufs}

/-- **C97**, one group of points (partial: for points that are `Tame`, under `VArith`, images of at least 3 pixels a side and at most 6800000 pixels): the fitness is the
quality of the picture of polygons that is exported for the same points, up to 1/90000, and no other colours of these polygons would give a better picture than the
fitness says, up to 1/90000. -/
theorem c97_picture_partial (A : ∀ ops, VArith g ieee w h ops) (S : SorterOK vs) (hw3 : 3 ≤ w) (hh3 : 3 ≤ h) (hwh : w * h ≤ 6800000) (hb : 1 ≤ bs) (hb' : bs ≤ 16)
    (hu : ∀ p ∈ ps, Alg.Unit01 p) (hl : ps.length ≤ 32767) (C : Tame g vs w h z ps)
    (H : Hist w h ops ↑(pix (rne 53) (ofBytes (rne 53) w h f) ps) m) (e : vExec g ieee vs w h ops = some d)
    {v : ℚ} (ev : evalPolys (rne 53) z (ofBytes (rne 53) w h f) bs (iterPolygons d) = some v) :
    ∃ P out cs, polygonate g ieee vs w h ps = some P ∧ polygonsOnImage (rne 53) z (ofBytes (rne 53) w h f) P = some out ∧ out.map Prod.snd = cs.map some ∧
      |v - polyQuality z (ofBytes (rne 53) w h f) P cs| ≤ 1 / 90000 ∧
      ∀ cs' : List RGB, cs'.length = P.length → polyQuality z (ofBytes (rne 53) w h f) P cs' ≤ v + 1 / 90000 := by
  have R : Rnd 53 (rne 53) := rne_rnd (by norm_num)
  have k := (A []).tri.size
  have hw : w ≤ 32768 := k.w2.trans (by norm_num)
  have hh : h ≤ 32768 := k.h2.trans (by norm_num)
  obtain ⟨P, hP, perm⟩ := c79_evaluated_partial A stores_ieee S hu hl H e C.clash C.off (C.corners ops m d H e)
  obtain ⟨inside, card⟩ := c79_inside_partial A S hu hl hP
  have img : ∀ l ∈ P, PolyIn w h l := fun l hl q hq =>
    ⟨((inside l hl).2.2 q hq).1.1, ((inside l hl).2.2 q hq).1.2, ((inside l hl).2.2 q hq).2.1, ((inside l hl).2.2 q hq).2.2⟩
  have few : P.length ≤ 2 * (w * h) := polys_few (by
    intro q hq
    obtain ⟨p, hp, rfl⟩ := List.mem_map.mp hq
    exact roundPoint_img R k (hu p hp)) card hw3 hh3
  have nd := C.apart P hP
  obtain ⟨P0, p0, e0⟩ := perm_map_lift perm
  obtain ⟨out, cs, v1, o1, o2, o3, o4, o5, -⟩ := c92_ieee_partial z f hb hb' k.w1 k.h1 hw hh hwh (P := P0) e0 img (fun l hl => (inside l hl).1) (C.fans P hP) nd few
  have K : PolysOK w h z (P0.map (roundPoly (rne 53))) := by
    change P0.map (roundPoly (rne 53)) = P at e0
    rw [e0]
    exact ⟨img, C.fans P hP, polys_size R z hw hh img nd, few⟩
  obtain ⟨v2, v3, e2, e3, b⟩ := polys_perm_close z f hb hb' k.w1 k.h1 hw hh hwh K p0
  rw [o3] at e2
  rw [ev] at e3
  cases e2
  cases e3
  have c2 := abs_le.mp b
  refine ⟨P, out, cs, hP, o1, o2, ?_, fun cs' hcs => ?_⟩
  · have c1 := abs_le.mp o4
    change -(1 / 100000) ≤ v1 - polyQuality z (ofBytes (rne 53) w h f) P cs ∧ v1 - polyQuality z (ofBytes (rne 53) w h f) P cs ≤ 1 / 100000 at c1
    norm_num at c1 c2
    rw [abs_le]
    constructor <;> norm_num <;> linarith
  · have c1 := o5 cs' hcs
    change polyQuality z (ofBytes (rne 53) w h f) P cs' ≤ _ at c1
    norm_num at c1 c2 ⊢
    linarith

/-- **C97**, the fitness function (partial: for points that are `Tame`, under `VArith`, as long as no panic occurs, images of at least 3 pixels a side and at most 6800000
pixels): what `Calculate` returns after any calls, from a base and recorded mutations, is the quality of the picture that is exported for the points, up to 1/90000. -/
theorem c97_calculate_partial (A : ∀ ops, VArith g ieee w h ops) (S : SorterOK vs) (hw3 : 3 ≤ w) (hh3 : 3 ≤ h) (hwh : w * h ≤ 6800000) (hb : 1 ≤ bs) (hb' : bs ≤ 16)
    (hN : N ≤ 32767) {n k : Nat} (hk : 1 ≤ k) {cs : List Call} {i : Nat} {ms : List Mut} {B : Book} {p : List Bool}
    (hB : Recordeds Alg.Unit01 N (Book.new n) (cs ++ [.calculate i ps ms]) B) (hf : flags (List.replicate n false) (cs ++ [.calculate i ps ms]) = some p)
    {s s' : Sys V (List Pt)} {v : ℚ} (hs : calls (vorFun g ieee vs z (ofBytes (rne 53) w h f) bs bf) (newParallel n k) cs = some s)
    (hv : calculate (vorFun g ieee vs z (ofBytes (rne 53) w h f) bs bf) s i ps ms = some (v, s')) (C : Tame g vs w h z ps) :
    ∃ P out cols, polygonate g ieee vs w h ps = some P ∧ polygonsOnImage (rne 53) z (ofBytes (rne 53) w h f) P = some out ∧ out.map Prod.snd = cols.map some ∧
      |v - polyQuality z (ofBytes (rne 53) w h f) P cols| ≤ 1 / 90000 := by
  have R : Rnd 53 (rne 53) := rne_rnd (by norm_num)
  obtain ⟨id, d, -, -, ⟨u, len, ops, m, d0, H, e0, st⟩, ev⟩ := book_last_weak (vor_wlaws (I := ofBytes (rne 53) w h f) A S (ofBytes_ok R w h f) hb hb' hN) hk hB hf hs hv
  rw [plain_vor, vstrip_iter st] at ev
  obtain ⟨P, out, cols, h1, h2, h3, h4, -⟩ := c97_picture_partial A S hw3 hh3 hwh hb hb' u (len.le.trans hN) C H e0 ev
  exact ⟨P, out, cols, h1, h2, h3, h4⟩

end

section
variable {w h : Nat} {f : Nat → Nat → Fin 256 × Fin 256 × Fin 256} {g : Geo} {vs : Vor.Sorter} {z : ℚ} {bs N cutoff k n : Nat} {srt : Alg.Sorter} {init : List (List NP)}
  {bf : V → V → VBufs} {a a' : Algo V (List Pt)}

/-- **C97**, the simple algorithm (partial: under `VArith`, as long as no panic occurs, for best points that are `Tame`, images of at least 3 pixels a side and at most
6800000 pixels): after any number of steps the best fitness is the quality of the picture of polygons that is exported for `Best()`, up to 1/90000. -/
theorem c97_simple_partial (S : VorSetting g ieee vs (ofBytes (rne 53) w h f) bs N srt cutoff init k) (hw3 : 3 ≤ w) (hh3 : 3 ≤ h) (hwh : w * h ≤ 6800000)
    (h1 : SimpleExec (vorFun g ieee vs z (ofBytes (rne 53) w h f) bs bf) srt cutoff (MutOK Alg.Unit01 N) init k n a) (C : Tame g vs w h z a.best) :
    ∃ P out cs, polygonate g ieee vs w h a.best = some P ∧ polygonsOnImage (rne 53) z (ofBytes (rne 53) w h f) P = some out ∧ out.map Prod.snd = cs.map some ∧
      |a.bestFit - polyQuality z (ofBytes (rne 53) w h f) P cs| ≤ 1 / 90000 := by
  obtain ⟨e1, e2, -, -⟩ := c43_polygons_partial S h1
  obtain ⟨-, -, hu⟩ := c44_polygons_partial S h1
  obtain ⟨len, u⟩ := hu a.best (List.mem_of_getElem? e1)
  obtain ⟨id, d, v, -, -, e3, ev, ops, m, d0, H, e0, hd⟩ := c49_polygons_partial S h1 e1
  rw [e2] at e3
  cases e3
  rw [hd] at ev
  obtain ⟨P, out, cs, p1, p2, p3, p4, -⟩ := c97_picture_partial S.arith S.corners hw3 hh3 hwh S.bs1 S.bs2 u (len.le.trans S.points) C H e0 ev
  exact ⟨P, out, cs, p1, p2, p3, p4⟩

/-- **C97**, the modified algorithm (partial: under `VArith`, positive fitnesses, as long as no panic occurs, for best points that are `Tame`, images of at least 3 pixels
a side and at most 6800000 pixels). -/
theorem c97_modified_partial (S : VorSetting g ieee vs (ofBytes (rne 53) w h f) bs N srt cutoff init k) (h2 : 2 * cutoff ≤ init.length) (hw3 : 3 ≤ w) (hh3 : 3 ≤ h)
    (hwh : w * h ≤ 6800000) (h1 : PosExec (vorFun g ieee vs z (ofBytes (rne 53) w h f) bs bf) srt cutoff Alg.Unit01 N init k n a) (hF : FrontPos cutoff a)
    (C : Tame g vs w h z a.best) :
    ∃ P out cs, polygonate g ieee vs w h a.best = some P ∧ polygonsOnImage (rne 53) z (ofBytes (rne 53) w h f) P = some out ∧ out.map Prod.snd = cs.map some ∧
      |a.bestFit - polyQuality z (ofBytes (rne 53) w h f) P cs| ≤ 1 / 90000 := by
  obtain ⟨e1, e2, -, -⟩ := c43_modified_polygons_partial S h2 h1 hF
  obtain ⟨-, -, hu⟩ := c44_modified_polygons_partial S h2 h1
  obtain ⟨len, u⟩ := hu a.best (List.mem_of_getElem? e1)
  rcases c64_modified_polygons_partial S h2 h1 hF e1 with ⟨id, d, v, -, -, e3, ev, ops, m, d0, H, e0, hd⟩ | ⟨-, hlt⟩
  · rw [e2] at e3
    cases e3
    rw [hd] at ev
    obtain ⟨P, out, cs, p1, p2, p3, p4, -⟩ := c97_picture_partial S.arith S.corners hw3 hh3 hwh S.bs1 S.bs2 u (len.le.trans S.points) C H e0 ev
    exact ⟨P, out, cs, p1, p2, p3, p4⟩
  · have := S.cutoff1
    omega

/-- One step of the simple algorithm on polygons, with some admissible mutations and under some schedule. -/
def PolySteps (F : Fun V (List Pt)) (srt : Alg.Sorter) (cutoff N : Nat) (x y : Algo V (List Pt)) : Prop :=
  ∃ μ l, MutOK Alg.Unit01 N μ ∧ SimpleStep F srt cutoff μ l x y

/-- **C97**, progress of the simple algorithm (partial: as `c97_simple_partial`): over any number of steps the exported picture gets worse by at most 1/45000. -/
theorem c97_progress_partial (S : VorSetting g ieee vs (ofBytes (rne 53) w h f) bs N srt cutoff init k) (hw3 : 3 ≤ w) (hh3 : 3 ≤ h) (hwh : w * h ≤ 6800000)
    (h1 : SimpleExec (vorFun g ieee vs z (ofBytes (rne 53) w h f) bs bf) srt cutoff (MutOK Alg.Unit01 N) init k n a)
    (hs : Relation.ReflTransGen (PolySteps (vorFun g ieee vs z (ofBytes (rne 53) w h f) bs bf) srt cutoff N) a a')
    (C : Tame g vs w h z a.best) (C' : Tame g vs w h z a'.best) :
    ∃ P P' out out' cs cs', polygonate g ieee vs w h a.best = some P ∧ polygonate g ieee vs w h a'.best = some P' ∧
      polygonsOnImage (rne 53) z (ofBytes (rne 53) w h f) P = some out ∧ polygonsOnImage (rne 53) z (ofBytes (rne 53) w h f) P' = some out' ∧
      out.map Prod.snd = cs.map some ∧ out'.map Prod.snd = cs'.map some ∧
      polyQuality z (ofBytes (rne 53) w h f) P cs ≤ polyQuality z (ofBytes (rne 53) w h f) P' cs' + 1 / 45000 := by
  have key : ∀ x, Relation.ReflTransGen (PolySteps (vorFun g ieee vs z (ofBytes (rne 53) w h f) bs bf) srt cutoff N) a x →
      (∃ n', SimpleExec (vorFun g ieee vs z (ofBytes (rne 53) w h f) bs bf) srt cutoff (MutOK Alg.Unit01 N) init k n' x) ∧ a.bestFit ≤ x.bestFit := by
    intro x hx
    induction hx with
    | refl => exact ⟨⟨n, h1⟩, le_rfl⟩
    | tail _ h2 ih =>
      obtain ⟨⟨n', h3⟩, h4⟩ := ih
      obtain ⟨μ, l, hμ, h5⟩ := h2
      exact ⟨⟨n' + 1, .step h3 hμ h5⟩, h4.trans (c42_polygons_partial S h3 hμ h5)⟩
  obtain ⟨⟨n', h'⟩, le⟩ := key _ hs
  obtain ⟨P, out, cs, e1, e2, e3, e4⟩ := c97_simple_partial S hw3 hh3 hwh h1 C
  obtain ⟨P', out', cs', e1', e2', e3', e4'⟩ := c97_simple_partial S hw3 hh3 hwh h' C'
  refine ⟨P, P', out, out', cs, cs', e1, e1', e2, e2', e3, e3', ?_⟩
  have b := abs_le.mp e4
  have b' := abs_le.mp e4'
  norm_num at b b' ⊢
  linarith

end

/-! ### Without rounding -/

section
variable {w h : Nat} {f : Nat → Nat → Fin 256 × Fin 256 × Fin 256} {vs : Vor.Sorter} {ps : List NP} {z : ℚ} {bs N : Nat} {bf : V → V → VBufs}

/-- **C97** without rounding, for all images of at most 6876000 pixels: no call panics, `Polygonate` returns, and if no two of the polygons it returns have a common
pixel, what `Calculate` returns is one minus the squared error of the exported picture, per channel and pixel, and no other colours of these polygons give a better
picture. -/
theorem c97_exact (hsz : SizeOk w h) (hwh : w * h ≤ 6876000) (S : SorterOK vs) (hb : 1 ≤ bs) (hb' : bs ≤ 16) (hN : N ≤ 32767)
    {n k : Nat} (hk : 1 ≤ k) {cs : List Call} {i : Nat} {ms : List Mut} {B : Book} {p : List Bool}
    (hB : Recordeds Alg.Unit01 N (Book.new n) (cs ++ [.calculate i ps ms]) B) (hf : flags (List.replicate n false) (cs ++ [.calculate i ps ms]) = some p) :
    ∃ s s' v P, calls (vorFun (gridGeo exactOps w h) exactOps vs z (ofBytes id w h f) bs bf) (newParallel n k) cs = some s ∧
      calculate (vorFun (gridGeo exactOps w h) exactOps vs z (ofBytes id w h f) bs bf) s i ps ms = some (v, s') ∧
      polygonate (gridGeo exactOps w h) exactOps vs w h ps = some P ∧
      ((P.flatMap (DDAPolygon id z)).Nodup → ∃ out cols, polygonsOnImage id z (ofBytes id w h f) P = some out ∧ out.map Prod.snd = cols.map some ∧
        v = 1 - pictureErr (ofBytes id w h f) FanOwns (P.zip cols) / (3 * (w * h)) ∧
        ∀ cols' : List RGB, cols'.length = P.length → 1 - pictureErr (ofBytes id w h f) FanOwns (P.zip cols') / (3 * (w * h)) ≤ v) := by
  have A : ∀ ops, VArith (gridGeo exactOps w h) exactOps w h ops := fun _ => varith_exact hsz
  have hw : w ≤ 32767 := hsz.w2.trans (by norm_num)
  have hh : h ≤ 32767 := hsz.h2.trans (by norm_num)
  obtain ⟨-, -, -, -, -, -, -, -, -, -, ⟨hu, len, -⟩, -⟩ := book_last (vor_laws (g := gridGeo exactOps w h) (F := exactOps) (vs := vs) (z := z)
    (I := ofBytes (fun x => x) w h f) (bs := bs) (bf := bf) A (noClash_exact w h) S (ofBytes_ok (id_rnd 53) w h f) hb hb' hN) hk hB hf
  have hl : ps.length ≤ 32767 := len.le.trans hN
  obtain ⟨s, s', v, d, hs, hv, e, ev⟩ := c77_exact (z := z) (bf := bf) hsz f S hb hb' hN hk hB hf
  obtain ⟨⟨m, H⟩, -⟩ := vor_build (g := gridGeo exactOps w h) (F := exactOps) (vs := vs) (z := z) (I := ofBytes (fun x => x) w h f) (bs := bs) (bf := bf)
    (id_rnd 53) hw hh hl hu
  obtain ⟨P, hP, perm⟩ := c79_exact hsz S hu hl H e
  refine ⟨s, s', v, P, hs, hv, hP, fun nd => ?_⟩
  obtain ⟨inside, -⟩ := c79_inside_partial A S hu hl hP
  have img : ∀ l ∈ P, PolyIn w h l := fun l hl q hq =>
    ⟨((inside l hl).2.2 q hq).1.1, ((inside l hl).2.2 q hq).1.2, ((inside l hl).2.2 q hq).2.1, ((inside l hl).2.2 q hq).2.2⟩
  obtain ⟨P0, p0, e0⟩ := perm_map_lift perm
  obtain ⟨out, cols, v1, o1, o2, o3, o4, o5, -⟩ := c92_exact z f hb hb' hsz.w1 hsz.h1 (by omega) (by omega) hwh (P := P0) e0 img (fun l hl => (inside l hl).1) nd
  have : v1 = v := by
    rw [evalPolys_perm (fl := id) (fun _ => rfl) p0] at o3
    exact Option.some_injective _ (o3.symm.trans ev)
  subst this
  exact ⟨out, cols, o1, o2, o4, o5⟩

end

/-! ### Polygons that are not apart -/

/-- The error of the picture, computed. -/
def shownErr {α : Type} (I : Img) (px : α → List (Int × Int)) (L : List (α × RGB)) : ℚ :=
  ∑ x ∈ Finset.range I.w, ∑ y ∈ Finset.range I.h, ((L.find? fun e => decide (((x : Int), (y : Int)) ∈ px e.1)).map fun e => rgbDist (I.px x y) e.2).getD 0

theorem shownErr_eq {α : Type} (I : Img) (px : α → List (Int × Int)) (L : List (α × RGB)) : pictureErr I (fun e q => q ∈ px e) L = shownErr I px L := by
  unfold pictureErr shownErr shade
  refine Finset.sum_congr rfl fun x _ => Finset.sum_congr rfl fun y _ => ?_
  rw [Option.map_map]
  congr 2
  refine congrArg (List.find? · L) (funext fun e => ?_)
  exact decide_eq_decide.mpr Iff.rfl

theorem polyQuality_eq (z : ℚ) (I : Img) (P : List (List Pt)) (cs : List RGB) :
    polyQuality z I P cs = 1 - shownErr I (DDAPolygon (rne 53) z) (P.zip cs) / (3 * (I.w * I.h)) := by
  unfold polyQuality
  rw [shownErr_eq]

/-- Three points. -/
def bentPoints : List NP := [⟨1 / 2, 1 / 8⟩, ⟨3 / 8, 1 / 8⟩, ⟨1, 1 / 2⟩]

/-- An 8 x 8 image, black above a diagonal and white below. -/
def halves (x y : Nat) : Fin 256 × Fin 256 × Fin 256 := if x + y < 9 then (0, 0, 0) else (255, 255, 255)

/-- The polygon fitness of this image. -/
def bentPoly : Fun V (List Pt) := vorFun (gridGeo ieee 8 8) ieee goSort 0 (ofBytes (rne 53) 8 8 halves) 1 noVBufs

/-- What is evaluated, exported and shown for `bentPoints`. -/
def bentRun : Option (ℚ × List (List Pt) × List (List NP × Option RGB)) := do
  let v ← calculate bentPoly (newParallel 1 3) 0 bentPoints []
  let P ← polygonate (gridGeo ieee 8 8) ieee goSort 8 8 bentPoints
  let out ← polygonsOnImage (rne 53) 0 (ofBytes (rne 53) 8 8 halves) P
  return (v.1, P, out)

theorem bentRun_fact : (bentRun.map fun r => decide (r.2.2.map Prod.snd = (r.2.2.map fun e => e.2.getD ⟨0, 0, 0⟩).map some ∧
    (∀ l ∈ r.2.1, ∀ t ∈ fan l, cross2 t.a t.b t.c ≠ 0) ∧
    r.1 + 1 / 50 < 1 - shownErr (ofBytes (rne 53) 8 8 halves) (DDAPolygon (rne 53) 0) (r.2.1.zip (r.2.2.map fun e => e.2.getD ⟨0, 0, 0⟩)) / (3 * (8 * 8)))) = some true := by
  decide +kernel

/-- **C97 is false** of polygons that are not apart: a corner of a cell is rounded so that the fan triangles of a polygon overlap.  For three points on an 8 x 8 image with
IEEE arithmetic the fitness is less than the quality of the exported picture by more than 1/50, although no fan triangle is degenerate. -/
theorem c97_overlap_false : ∃ v s P out cs, (∀ p ∈ bentPoints, Alg.Unit01 p) ∧ calculate bentPoly (newParallel 1 3) 0 bentPoints [] = some (v, s) ∧
    polygonate (gridGeo ieee 8 8) ieee goSort 8 8 bentPoints = some P ∧ polygonsOnImage (rne 53) 0 (ofBytes (rne 53) 8 8 halves) P = some out ∧
    out.map Prod.snd = cs.map some ∧ (∀ l ∈ P, ∀ t ∈ fan l, NonDegenerate t) ∧ v + 1 / 50 < polyQuality 0 (ofBytes (rne 53) 8 8 halves) P cs := by
  have h := bentRun_fact
  rw [Option.map_eq_some_iff] at h
  obtain ⟨⟨v, P, out⟩, e, h⟩ := h
  unfold bentRun at e
  simp only [Option.bind_eq_bind, Option.bind_eq_some_iff] at e
  obtain ⟨⟨v', s⟩, e1, P', e2, out', e3, e4⟩ := e
  cases e4
  rw [decide_eq_true_eq] at h
  obtain ⟨h1, h2, h3⟩ := h
  refine ⟨_, s, _, _, _, ?_, e1, e2, e3, h1, ?_, ?_⟩
  · intro p hp
    simp only [bentPoints, List.mem_cons, List.not_mem_nil, or_false] at hp
    rcases hp with rfl | rfl | rfl <;> (unfold Alg.Unit01; norm_num)
  · intro l hl t ht
    rw [iori_nondeg]
    exact h2 l hl t ht
  · rw [polyQuality_eq]
    exact h3

/-! ### The theorems apply -/

/-- A way to see that points are `Tame`: by computing. -/
theorem tame_of {w h : Nat} {ps : List NP} (hs : SizeOk w h) (hw : side w h ≤ 4096) (hu : ∀ p ∈ ps, Alg.Unit01 p) (hl : ps.length ≤ 32767)
    (h1 : ∀ pre ∈ ((ps.map fun p => createPoint (rne 53) p w h).map Op.ins).inits, (exec (gridGeo ieee w h) (rne 53) w h pre).any (clashFree (gridGeo ieee w h) ieee) = true)
    (h2 : ∀ p ∈ ps, rne 53 (p.x * w) ≠ 1 / 2 - 1 / 2 ^ 54 ∧ rne 53 (p.y * h) ≠ 1 / 2 - 1 / 2 ^ 54)
    (h3 : (vExec (gridGeo ieee w h) ieee goSort w h ((ps.map fun p => createPoint (rne 53) p w h).map Op.ins)).any
      (fun v => decide (∀ l ∈ iterPolygons v, ∀ c ∈ l, c.1 ≠ 1 / 2 - 1 / 2 ^ 54 ∧ c.2 ≠ 1 / 2 - 1 / 2 ^ 54)) = true)
    (h4 : (polygonate (gridGeo ieee w h) ieee goSort w h ps).any
      (fun P => decide ((∀ l ∈ P, ∀ t ∈ fan l, cross2 t.a t.b t.c ≠ 0) ∧ (P.flatMap (DDAPolygon (rne 53) 0)).Nodup)) = true) : Tame (gridGeo ieee w h) goSort w h 0 ps := by
  have A : ∀ ops, VArith (gridGeo ieee w h) ieee w h ops := fun _ => varith_ieee hs hw
  obtain ⟨⟨m, H⟩, -⟩ := vor_build (g := gridGeo ieee w h) (F := ieee) (vs := goSort) (z := 0) (I := ofBytes (rne 53) w h fun _ _ => (0, 0, 0)) (bs := 1) (bf := noVBufs)
    (rne_rnd (by norm_num)) (hs.w2.trans (by norm_num)) (hs.h2.trans (by norm_num)) hl hu
  have cl : ∀ q ∈ ps.map fun p => createPoint (rne 53) p w h, ¬ CellClash ieee w h ↑(ps.map fun p => createPoint (rne 53) p w h) q := by
    intro q hq
    exact no_clash_of (A ((ps.map fun p => createPoint (rne 53) p w h).map .ins)) (fun pre hp => by have := h1 pre hp; rwa [Option.any_eq_true] at this)
      _ _ _ (List.prefix_refl _) H q hq
  rw [Option.any_eq_true] at h3 h4
  obtain ⟨v, e, h3⟩ := h3
  obtain ⟨P, hP, h4⟩ := h4
  rw [decide_eq_true_eq] at h3 h4
  refine ⟨cl, h2, ?_, ?_, ?_⟩
  · intro ops m' v' H' e' l hl
    exact h3 l ((polygons_perm (A ops) H' e' (A _) H e goSort_ok cl).subset hl)
  · intro P' hP' l hl t ht
    rw [hP] at hP'
    cases hP'
    rw [iori_nondeg]
    exact h4.1 l hl t ht
  · intro P' hP'
    rw [hP] at hP'
    cases hP'
    exact h4.2

theorem tiny_tame : Tame (gridGeo ieee 4 4) goSort 4 4 0 tinyPoints :=
  tame_of tiny_size (by decide) tiny_unit (by decide) (by decide +kernel) (by decide +kernel) (by decide +kernel) (by decide +kernel)

/-- The assumptions of `c97_picture_partial` hold of these points. -/
example : ∃ v d P out cs, vExec (gridGeo ieee 4 4) ieee goSort 4 4 ((pix (rne 53) (checker (rne 53) 4 4) tinyPoints).map .ins) = some d ∧
    evalPolys (rne 53) 0 (checker (rne 53) 4 4) 1 (iterPolygons d) = some v ∧ polygonate (gridGeo ieee 4 4) ieee goSort 4 4 tinyPoints = some P ∧
    polygonsOnImage (rne 53) 0 (checker (rne 53) 4 4) P = some out ∧ out.map Prod.snd = cs.map some ∧ |v - polyQuality 0 (checker (rne 53) 4 4) P cs| ≤ 1 / 90000 := by
  obtain ⟨⟨m, H⟩, -⟩ := vor_build (g := gridGeo ieee 4 4) (F := ieee) (vs := goSort) (z := 0) (I := checker (rne 53) 4 4) (bs := 1) (bf := noVBufs)
    (rne_rnd (by norm_num)) (ps := tinyPoints) (by decide) (by decide) (by decide) tiny_unit
  have e1 : ((vExec (gridGeo ieee 4 4) ieee goSort 4 4 ((pix (rne 53) (checker (rne 53) 4 4) tinyPoints).map .ins)).bind fun d =>
    evalPolys (rne 53) 0 (checker (rne 53) 4 4) 1 (iterPolygons d)).isSome = true := by decide +kernel
  obtain ⟨v, e1⟩ := Option.isSome_iff_exists.mp e1
  obtain ⟨d, e, ev⟩ := Option.bind_eq_some_iff.mp e1
  obtain ⟨P, out, cs, h1, h2, h3, h4, -⟩ := c97_picture_partial tiny_varith goSort_ok (by norm_num) (by norm_num) (by norm_num) le_rfl (by norm_num) tiny_unit (by decide)
    tiny_tame H e ev
  exact ⟨v, d, P, out, cs, e, ev, h1, h2, h3, h4⟩

/-- The assumptions of `c97_calculate_partial` hold of the history of `tinyCalls`. -/
example : ∃ s v s' P out cols, calls tinyPoly (newParallel 2 1) tinyCalls = some s ∧ calculate tinyPoly s 1 tinyPoints tinyMut = some (v, s') ∧
    polygonate (gridGeo ieee 4 4) ieee goSort 4 4 tinyPoints = some P ∧ polygonsOnImage (rne 53) 0 (checker (rne 53) 4 4) P = some out ∧ out.map Prod.snd = cols.map some ∧
    |v - polyQuality 0 (checker (rne 53) 4 4) P cols| ≤ 1 / 90000 := by
  have e1 : ((calls tinyPoly (newParallel 2 1) tinyCalls).bind fun s => calculate tinyPoly s 1 tinyPoints tinyMut).isSome = true := by decide +kernel
  obtain ⟨⟨v, s'⟩, e1⟩ := Option.isSome_iff_exists.mp e1
  obtain ⟨s, hs, hv⟩ := Option.bind_eq_some_iff.mp e1
  obtain ⟨P, out, cols, h1, h2, h3, h4⟩ := c97_calculate_partial tiny_varith goSort_ok (by norm_num) (by norm_num) (by norm_num) (by norm_num) (by norm_num)
    (N := 4) (by norm_num) (by norm_num) tiny_recorded (p := [false, true]) (by decide) hs hv tiny_tame
  exact ⟨s, v, s', P, out, cols, hs, hv, h1, h2, h3, h4⟩

/-- `c97_exact` on the same history. -/
example : ∃ s s' v P, calls (vorFun (gridGeo exactOps 4 4) exactOps goSort 0 (checker id 4 4) 1 noVBufs) (newParallel 2 1) tinyCalls = some s ∧
    calculate (vorFun (gridGeo exactOps 4 4) exactOps goSort 0 (checker id 4 4) 1 noVBufs) s 1 tinyPoints tinyMut = some (v, s') ∧
    polygonate (gridGeo exactOps 4 4) exactOps goSort 4 4 tinyPoints = some P ∧
    ∃ out cols, polygonsOnImage id 0 (checker id 4 4) P = some out ∧ out.map Prod.snd = cols.map some ∧
      v = 1 - pictureErr (checker id 4 4) FanOwns (P.zip cols) / (3 * (4 * 4)) := by
  obtain ⟨s, s', v, P, h1, h2, h3, h4⟩ := c97_exact (z := 0) (f := fun x y => if (x + y) % 2 = 0 then (0, 0, 0) else (255, 255, 255)) (bs := 1) (bf := noVBufs)
    tiny_size (by norm_num) goSort_ok (by norm_num) (by norm_num) (N := 4) (by norm_num) (k := 1)
    (by norm_num) tiny_recorded (p := [false, true]) (by decide)
  have nd : (polygonate (gridGeo exactOps 4 4) exactOps goSort 4 4 tinyPoints).any (fun P => decide (P.flatMap (DDAPolygon id 0)).Nodup) = true := by decide +kernel
  rw [h3, Option.any_some, decide_eq_true_eq] at nd
  obtain ⟨out, cols, h5, h6, h7, -⟩ := h4 nd
  exact ⟨s, s', v, P, h1, h2, h3, out, cols, h5, h6, by exact_mod_cast h7⟩

/-- Play `NewSimple`. -/
def playNewSimple {Dt K : Type} (F : Fun Dt K) (srt : Alg.Sorter) (init : List (List NP)) (k : Nat) (l : List Who) : Option (Algo Dt K) := do
  let b ← simpleInit init k
  let q ← play F b.pop.length (ptsOf b) (mutsOf b) (Ph.start b.sys) l
  if q.pc = .recv b.pop.length ∧ 0 < b.pop.length then updateFitnesses srt { b with sys := q.sys, fit := collect b.fit q.arr } else none

theorem playNewSimple_ok {Dt K : Type} {F : Fun Dt K} {srt : Alg.Sorter} {init : List (List NP)} {k : Nat} {l : List Who} {a : Algo Dt K}
    (h : playNewSimple F srt init k l = some a) : NewSimple F srt init k l a := by
  unfold playNewSimple at h
  simp only [Option.bind_eq_bind, Option.bind_eq_some_iff] at h
  obtain ⟨b, h1, q, h2, h3⟩ := h
  split at h3
  · rename_i hf
    exact ⟨b, q, h1, play_run l h2, hf, h3⟩
  · cases h3

/-- Play a step of the simple algorithm. -/
def playSimple {Dt K : Type} (F : Fun Dt K) (srt : Alg.Sorter) (cutoff : Nat) (μ : Mutator) (l : List Who) (a : Algo Dt K) : Option (Algo Dt K) := do
  let b ← newGeneration μ cutoff a.pop.length a
  let q ← play F b.pop.length (ptsOf b) (mutsOf b) (Ph.start b.sys) l
  if q.pc = .recv b.pop.length ∧ 0 < b.pop.length then
    (updateFitnesses srt { b with sys := q.sys, fit := collect b.fit q.arr }).map fun d => { d with gen := d.gen + 1 }
  else none

theorem playSimple_ok {Dt K : Type} {F : Fun Dt K} {srt : Alg.Sorter} {cutoff : Nat} {μ : Mutator} {l : List Who} {a a' : Algo Dt K}
    (h : playSimple F srt cutoff μ l a = some a') : SimpleStep F srt cutoff μ l a a' := by
  unfold playSimple at h
  simp only [Option.bind_eq_bind, Option.bind_eq_some_iff] at h
  obtain ⟨b, h1, q, h2, h3⟩ := h
  split at h3
  · rename_i hf
    obtain ⟨d, h4, h5⟩ := Option.map_eq_some_iff.mp h3
    exact ⟨b, q, d, h1, play_run l h2, hf, h4, h5.symm⟩
  · cases h3

/-- The constructor of the simple algorithm on the 4 x 4 image with two equal members, and a step, evaluating member 1 first. -/
def tinyNew : Option (Algo V (List Pt)) := playNewSimple tinyPoly selSorter [tinyPoints, tinyPoints] 4 (inOrder 2 (fun _ => 4) [0, 1])

/-- See `tinyNew`. -/
def tinyStep : Option (Algo V (List Pt)) := tinyNew.bind (playSimple tinyPoly selSorter 1 moveFirst (inOrder 2 (fun _ => 4) [1, 0]))

/-- The points after the step. -/
def tinyMoved : List NP := [⟨1 / 3, 1 / 4⟩, ⟨1, 1 / 4⟩, ⟨0, 1⟩, ⟨3 / 4, 1⟩]

theorem tinyNew_best : (tinyNew.map fun a => a.best) = some tinyPoints := by decide +kernel

theorem tinyStep_best : (tinyStep.map fun a => a.best) = some tinyMoved := by decide +kernel

theorem tinyMoved_tame : Tame (gridGeo ieee 4 4) goSort 4 4 0 tinyMoved := by
  refine tame_of tiny_size (by decide) ?_ (by decide) (by decide +kernel) (by decide +kernel) (by decide +kernel) (by decide +kernel)
  intro p hp
  simp only [tinyMoved, List.mem_cons, List.not_mem_nil, or_false] at hp
  rcases hp with rfl | rfl | rfl | rfl <;> (unfold Alg.Unit01; norm_num)

theorem tiny_poly_setting : VorSetting (gridGeo ieee 4 4) ieee goSort (checker (rne 53) 4 4) 1 4 selSorter 1 [tinyPoints, tinyPoints] 4 := by
  refine vor_setting_ieee tiny_size (by decide) goSort_ok _ (by norm_num) (by norm_num) (by norm_num) selSorter_ok (by norm_num) le_rfl (by decide) ?_
  decide +kernel

/-- The assumptions of `c97_simple_partial` and `c97_progress_partial` hold of this execution: the step changes the best points. -/
example : ∃ a a' P P' cs cs', SimpleExec tinyPoly selSorter 1 (MutOK Alg.Unit01 4) [tinyPoints, tinyPoints] 4 0 a ∧ a.best = tinyPoints ∧
    PolySteps tinyPoly selSorter 1 4 a a' ∧ a'.best = tinyMoved ∧
    polygonate (gridGeo ieee 4 4) ieee goSort 4 4 tinyPoints = some P ∧ polygonate (gridGeo ieee 4 4) ieee goSort 4 4 tinyMoved = some P' ∧
    |a'.bestFit - polyQuality 0 (checker (rne 53) 4 4) P' cs'| ≤ 1 / 90000 ∧
    polyQuality 0 (checker (rne 53) 4 4) P cs ≤ polyQuality 0 (checker (rne 53) 4 4) P' cs' + 1 / 45000 := by
  obtain ⟨a', e', b'⟩ := Option.map_eq_some_iff.mp tinyStep_best
  unfold tinyStep at e'
  obtain ⟨a, e, st⟩ := Option.bind_eq_some_iff.mp e'
  have b := tinyNew_best
  rw [e, Option.map_some, Option.some.injEq] at b
  have x : SimpleExec tinyPoly selSorter 1 (MutOK Alg.Unit01 4) [tinyPoints, tinyPoints] 4 0 a := .new (playNewSimple_ok e)
  have s : PolySteps tinyPoly selSorter 1 4 a a' := ⟨_, _, moveFirst_ok 4, playSimple_ok st⟩
  obtain ⟨P, P', out, out', cs, cs', h1, h2, h3, h4, h5, h6, h7⟩ := c97_progress_partial tiny_poly_setting (by norm_num) (by norm_num) (by norm_num) x (.single s)
    (by rw [b]; exact tiny_tame) (by rw [b']; exact tinyMoved_tame)
  obtain ⟨P'', out'', cs'', k1, k2, k3, k4⟩ := c97_simple_partial tiny_poly_setting (by norm_num) (by norm_num) (by norm_num)
    (SimpleExec.step x (moveFirst_ok 4) (playSimple_ok st)) (by rw [b']; exact tinyMoved_tame)
  rw [h2] at k1
  cases k1
  rw [h4] at k2
  cases k2
  rw [h6] at k3
  have : cs' = cs'' := List.map_injective_iff.mpr (Option.some_injective _) k3
  subst this
  rw [b] at h1
  rw [b'] at h2
  exact ⟨a, a', P, P', cs, cs', x, b, s, b', h1, h2, k4, h7⟩

/-- The constructor of the modified algorithm. -/
def tinyNewMod : Option (Algo V (List Pt)) := playNewMod tinyPoly selSorter 1 [tinyPoints, tinyPoints] 4 (inOrder 1 (fun _ => 4) [0])

theorem tinyNewMod_front : (tinyNewMod.map fun a => decide (a.best = tinyPoints ∧ a.pop.length = 2 ∧ a.fit.length = 2 ∧ 0 < a.fit.getD 0 0)) = some true := by
  decide +kernel

/-- The assumptions of `c97_modified_partial` hold of it. -/
example : ∃ a P cs, PosExec tinyPoly selSorter 1 Alg.Unit01 4 [tinyPoints, tinyPoints] 4 0 a ∧ polygonate (gridGeo ieee 4 4) ieee goSort 4 4 a.best = some P ∧
    |a.bestFit - polyQuality 0 (checker (rne 53) 4 4) P cs| ≤ 1 / 90000 := by
  obtain ⟨a, e, h⟩ := Option.map_eq_some_iff.mp tinyNewMod_front
  rw [decide_eq_true_eq] at h
  obtain ⟨b, h1, h2, h3⟩ := h
  have x : PosExec tinyPoly selSorter 1 Alg.Unit01 4 [tinyPoints, tinyPoints] 4 0 a := .new (playNewMod_ok e)
  have hF : FrontPos 1 a := by
    intro i hi
    rw [h1] at hi
    have hi' : i = 0 := by omega
    subst hi'
    refine ⟨_, ?_, h3⟩
    rw [List.getD_eq_getElem?_getD, List.getElem?_eq_getElem (by omega)]
    rfl
  obtain ⟨P, out, cs, k1, -, -, k4⟩ := c97_modified_partial tiny_poly_setting (by decide) (by norm_num) (by norm_num) (by norm_num) x hF (by rw [b]; exact tiny_tame)
  exact ⟨a, P, cs, x, k1, k4⟩

end Verif.Props

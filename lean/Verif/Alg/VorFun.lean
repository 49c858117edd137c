import Verif.Alg.Opt
import Verif.Alg.PolyFun
import Verif.Props.VorGeom
import Verif.Props.VorSet

/-!
# The polygon fitness function over the Voronoi diagrams of `Vor/Model.lean`, and its laws
-/

namespace Verif.Alg

open Verif.Tri Verif.Spec Verif.Float Verif.Raster Verif.Fit Verif.Props
open Verif.Vor hiding Sorter
open Verif.Incr hiding trunc step run Entry

/-- polygons.go: the parts of `polygonsImageFunction` for the image `I` and block size `bs`, over the incremental Voronoi diagrams of
voronoi.go.  `bf` gives the reused buffers of `Set`. -/
def vorFun (g : Geo) (F : FloatOps) (vs : Vor.Sorter) (z : ℚ) (I : Img) (bs : Nat) (bf : V → V → VBufs) : Fun V (List Pt) :=
  polyFun (newVoronoi g I.w I.h) (vInsert g F vs) (vRemove g F vs) (fun v o => vSet v (bf v o) o) iterPolygons F.r64 z I bs

/-- In no history do two corners of a cell clash. -/
def NoClash (F : FloatOps) (w h : Nat) : Prop := ∀ ops s m, Hist w h ops s m → ∀ q ∈ s, ¬ CellClash F w h s q

/-- `v` holds the diagram of the points `ps`: up to the two counters that `Set` does not copy, it is the state reached by some admissible
sequence of `Insert` and `Remove` calls that leaves exactly these points. -/
def VorRepr (g : Geo) (F : FloatOps) (vs : Vor.Sorter) (I : Img) (n : Nat) (v : V) (ps : List NP) : Prop :=
  (∀ p ∈ ps, Unit01 p) ∧ ps.length = n ∧
  ∃ ops m v0, Hist I.w I.h ops ↑(pix F.r64 I ps) m ∧ vExec g F vs I.w I.h ops = some v0 ∧ vstrip v = vstrip v0

variable {g : Geo} {F : FloatOps} {vs : Vor.Sorter} {z : ℚ} {I : Img} {bs : Nat} {bf : V → V → VBufs}

theorem vExec_append (a b : List Op) {w h : Nat} :
    vExec g F vs w h (a ++ b) = (vExec g F vs w h a).bind (fun v => b.foldlM (vStep g F vs) v) := by
  unfold vExec
  cases newVoronoi g w h with
  | none => rfl
  | some v =>
    simp only [Option.bind_some]
    rw [List.foldlM_append]
    rfl

theorem vor_ins_run (v : V) (ps : List NP) :
    insAll (vorFun g F vs z I bs bf) v ps = ((pix F.r64 I ps).map Op.ins).foldlM (vStep g F vs) v := by
  unfold insAll pix
  rw [List.foldlM_map, List.foldlM_map]
  rfl

theorem vor_muts_run (v : V) (ms : List Mut) : applyMuts (vorFun g F vs z I bs bf) v ms =
    ((pix F.r64 I (ms.map Mut.old)).map Op.rem ++ (pix F.r64 I (ms.map Mut.new)).map Op.ins).foldlM (vStep g F vs) v := by
  have h := vor_ins_run (g := g) (F := F) (vs := vs) (z := z) (I := I) (bs := bs) (bf := bf)
  unfold applyMuts
  rw [List.foldlM_append]
  have e : (ms.map Mut.old).foldlM (vorFun g F vs z I bs bf).rem v = ((pix F.r64 I (ms.map Mut.old)).map Op.rem).foldlM (vStep g F vs) v := by
    unfold pix
    simp only [List.foldlM_map]
    rfl
  rw [e]
  cases ((pix F.r64 I (ms.map Mut.old)).map Op.rem).foldlM (vStep g F vs) v with
  | none => rfl
  | some v' =>
    simp only [Option.bind_eq_bind, Option.bind_some]
    exact h v' (ms.map Mut.new)

/-! ### The vertices of a rounded polygon -/

theorem mem_roundPoly {fl : ℚ → ℚ} {ps : List (ℚ × ℚ)} {q : Pt} (hq : q ∈ roundPoly fl ps) :
    ∃ p ∈ ps, q = ⟨fastRound fl p.1, fastRound fl p.2⟩ := by
  have key : ∀ (l : List (ℚ × ℚ)) (out : List Pt), q ∈ l.foldl (fun out p =>
      let q : Pt := ⟨fastRound fl p.1, fastRound fl p.2⟩
      if out.getLast? = some q then out else out ++ [q]) out → q ∈ out ∨ ∃ p ∈ l, q = ⟨fastRound fl p.1, fastRound fl p.2⟩ := by
    intro l
    induction l with
    | nil => intro out h; exact Or.inl h
    | cons p l ih =>
      intro out h
      rw [List.foldl_cons] at h
      rcases ih _ h with h | ⟨p', hp', e⟩
      · simp only at h
        split at h
        · exact Or.inl h
        · rcases List.mem_append.mp h with h | h
          · exact Or.inl h
          · exact Or.inr ⟨p, by simp, by simpa using h⟩
      · exact Or.inr ⟨p', by simp [hp'], e⟩
  rcases key ps [] hq with h | h
  · simp at h
  · exact h

theorem mem_fan {ps : List Pt} {t : Tri} (ht : t ∈ fan ps) : t.a ∈ ps ∧ t.b ∈ ps ∧ t.c ∈ ps := by
  cases ps with
  | nil => simp [fan] at ht
  | cons p0 ps =>
    simp only [fan, List.mem_map] at ht
    obtain ⟨⟨u, v⟩, he, rfl⟩ := ht
    have h := List.of_mem_zip he
    exact ⟨List.mem_cons_of_mem _ (List.mem_of_mem_tail h.2), List.mem_cons_of_mem _ h.1, by simp⟩

/-- A coordinate that exceeds the image by little is rounded into the image. -/
theorem fastRound_in {fl : ℚ → ℚ} (R : Rnd 53 fl) {n : Nat} (hn : n ≤ 8191) {x : ℚ} (h0 : -fl (1 / 10000) ≤ x)
    (h1 : x ≤ fl (n + fl (1 / 10000))) : 0 ≤ fastRound fl x ∧ fastRound fl x ≤ n := by
  have hn' : (n : ℚ) ≤ 8191 := by exact_mod_cast hn
  have e1 := abs_le.mp (R.err (1 / 10000))
  rw [abs_of_nonneg (by norm_num : (0 : ℚ) ≤ 1 / 10000)] at e1
  have he : fl (1 / 10000) ≤ 1 / 5000 := by have := e1.2; norm_num at this ⊢; linarith
  have he0 : 0 ≤ fl (1 / 10000) := by have := e1.1; norm_num at this ⊢; linarith
  have e2 := abs_le.mp (R.err (n + fl (1 / 10000)))
  rw [abs_of_nonneg (by positivity)] at e2
  have hx : x ≤ n + 1 / 1000 := by
    have : ((n : ℚ) + fl (1 / 10000)) / 2 ^ 53 ≤ 1 / 10000 := by
      rw [div_le_iff₀ (by norm_num)]
      norm_num
      linarith
    linarith [e2.2]
  have hlo : 0 ≤ fl (x + 1 / 2) := R.nonneg (by linarith)
  have hhi : fl (x + 1 / 2) ≤ n + 3 / 4 := by
    have e3 := abs_le.mp (R.err (x + 1 / 2))
    have hp : 0 ≤ x + 1 / 2 := by linarith
    rw [abs_of_nonneg hp] at e3
    have : (x + 1 / 2) / 2 ^ 53 ≤ 1 / 100 := by
      rw [div_le_iff₀ (by norm_num)]
      norm_num
      linarith
    linarith [e3.2]
  unfold fastRound Raster.trunc
  rw [if_pos hlo]
  refine ⟨Int.floor_nonneg.mpr hlo, ?_⟩
  have : ⌊fl (x + 1 / 2)⌋ < (n : ℤ) + 1 := by
    rw [Int.floor_lt]
    push_cast
    linarith
  omega

theorem keys_in (A : ∀ ops, VArith g F I.w I.h ops) (S : SorterOK vs) {ops : List Op} {s : Multiset Pt} {m : Nat} {v : V}
    (H : Hist I.w I.h ops s m) (e : vExec g F vs I.w I.h ops = some v) {l : List FP} (hl : l ∈ iterPolygons v) :
    ∀ q ∈ roundPoly F.r64 l, InBox I.w I.h q := by
  intro q hq
  obtain ⟨p, hp, rfl⟩ := mem_roundPoly hq
  obtain ⟨⟨q', l'⟩, hm, rfl⟩ := List.mem_map.mp (List.mem_filter.mp hl).1
  obtain ⟨a, b, c, d⟩ := c70_inside_partial (A ops) H e S hm p hp
  have hx := fastRound_in (A []).rnd (A []).tri.size.w2 a b
  have hy := fastRound_in (A []).rnd (A []).tri.size.h2 c d
  exact ⟨hx.1, hx.2, hy.1, hy.2⟩

/-- A polygon with vertices in the image has a value. -/
theorem polyValue_some {fl : ℚ → ℚ} (R : Rnd 53 fl) (z : ℚ) (hI : I.OK) (hw : I.w ≤ 2 ^ 15) (hh : I.h ≤ 2 ^ 15) (hb : 1 ≤ bs) (hb' : bs ≤ 16)
    {ps : List Pt} (hp : ∀ q ∈ ps, InBox I.w I.h q) : ∃ v, polyValue fl z I bs ps = some v := by
  unfold polyValue
  rw [foldlM_sums R hI hb']
  · exact ⟨_, rfl⟩
  · intro e he
    obtain ⟨t, ht, he⟩ := List.mem_flatMap.mp he
    obtain ⟨a, b, c⟩ := mem_fan ht
    exact valid_of R z hw hh hb ⟨hp _ a, hp _ b, hp _ c⟩ e he

theorem vstrip_iter {v v' : V} (h : vstrip v = vstrip v') : iterPolygons v = iterPolygons v' := by
  have : iterPolygons (vstrip v) = iterPolygons (vstrip v') := by rw [h]
  exact this

theorem vstrip_fields {x y : V} (hxy : vstrip x = vstrip y) : x.d.pm = y.d.pm ∧ x.pm = y.pm ∧ x.w = y.w ∧ x.h = y.h := by
  refine ⟨?_, ?_, ?_, ?_⟩
  · have : (vstrip x).d.pm = (vstrip y).d.pm := by rw [hxy]
    exact this
  · have : (vstrip x).pm = (vstrip y).pm := by rw [hxy]
    exact this
  · have : (vstrip x).w = (vstrip y).w := by rw [hxy]
    exact this
  · have : (vstrip x).h = (vstrip y).h := by rw [hxy]
    exact this

/-- Building a diagram is a history of insertions. -/
theorem vor_build (R : Rnd 53 F.r64) (hw : I.w ≤ 32767) (hh : I.h ≤ 32767) {ps : List NP} (hl : ps.length ≤ 32767) (hd : ∀ p ∈ ps, Unit01 p) :
    (∃ m, Hist I.w I.h ((pix F.r64 I ps).map .ins) ↑(pix F.r64 I ps) m) ∧
    vExec g F vs I.w I.h ((pix F.r64 I ps).map .ins) = (vorFun g F vs z I bs bf).new.bind fun d => insAll (vorFun g F vs z I bs bf) d ps := by
  obtain ⟨m, H⟩ := hist_ins (pix F.r64 I ps) (Hist.nil (w := I.w) (h := I.h)) (pix_img R hw hh hd) (by simp [pix]; omega)
  rw [List.nil_append, zero_add] at H
  refine ⟨⟨m, H⟩, ?_⟩
  unfold vExec
  simp only [vor_ins_run]
  rfl

/-- Updating a diagram continues a history. -/
theorem vor_update (R : Rnd 53 F.r64) (hw : I.w ≤ 32767) (hh : I.h ≤ 32767) {n : Nat} (hn : n ≤ 32767) {v o : V} {qs ps ps' : List NP} {ms : List Mut}
    (hr : VorRepr g F vs I n v qs) (ho : VorRepr g F vs I n o ps) (M : Mutates Unit01 ps ps' ms) :
    (∀ p ∈ ps', Unit01 p) ∧ ps'.length = n ∧ ∃ ops m, Hist I.w I.h ops ↑(pix F.r64 I ps') m ∧
      (applyMuts (vorFun g F vs z I bs bf) ((vorFun g F vs z I bs bf).set v o) ms).map vstrip = (vExec g F vs I.w I.h ops).map vstrip := by
  obtain ⟨-, -, ops1, m1, v1, H1, e1, s1⟩ := hr
  obtain ⟨hd, hl, ops, m, v0, H, e, s0⟩ := ho
  obtain ⟨rest, b1, b2⟩ := M.bag
  have H2 : Hist I.w I.h (ops ++ (pix F.r64 I (ms.map Mut.old)).map Op.rem) ↑(pix F.r64 I rest) m := by
    refine hist_rem _ ?_
    have : ((pix F.r64 I (ms.map Mut.old) : List Pt) : Multiset Pt) + ↑(pix F.r64 I rest) = ↑(pix F.r64 I ps) := by
      rw [Multiset.coe_add, Multiset.coe_eq_coe]
      unfold pix
      rw [← List.map_append]
      exact (b1.map _).symm
    rw [this]
    exact H
  have hl' : ps'.length = n := M.len.trans hl
  have hnew : ∀ q ∈ pix F.r64 I (ms.map Mut.new), InImg I.w I.h q := by
    refine pix_img R hw hh ?_
    intro p hp
    obtain ⟨m, hm, rfl⟩ := List.mem_map.mp hp
    exact M.dom m hm
  have hcard : rest.length + ms.length = n := by
    have := b2.length_eq
    simp only [List.length_append, List.length_map] at this
    omega
  obtain ⟨m', H3⟩ := hist_ins _ H2 hnew (by simp [pix]; omega)
  have eb : ((pix F.r64 I rest : List Pt) : Multiset Pt) + ↑(pix F.r64 I (ms.map Mut.new)) = ↑(pix F.r64 I ps') := by
    rw [Multiset.coe_add, Multiset.coe_eq_coe]
    unfold pix
    rw [← List.map_append]
    exact ((b2.trans List.perm_append_comm).map _).symm
  rw [eb, List.append_assoc] at H3
  refine ⟨M.domain hd, hl', _, m', H3, ?_⟩
  rw [vExec_append, e, Option.bind_some, vor_muts_run]
  obtain ⟨a1, a2, a3, a4⟩ := vExec_keep e1
  obtain ⟨c1, c2, c3, c4⟩ := vExec_keep e
  obtain ⟨p1, p2, p3, p4⟩ := vstrip_fields s1
  obtain ⟨q1, q2, q3, q4⟩ := vstrip_fields s0
  have st : vstrip ((vorFun g F vs z I bs bf).set v o) = vstrip v0 :=
    (vSet_strip v (bf v o) o (by rw [p1, q1, exec_pmlen a1, exec_pmlen c1]) (by rw [p2, q2, a2, c2])
      (by rw [p3, q3, a3, c3]) (by rw [p4, q4, a4, c4])).trans s0
  exact vRun_strip (g := g) (F := F) (srt := vs) _ st

theorem vor_key (A : ∀ ops, VArith g F I.w I.h ops) (S : SorterOK vs) (hI : I.OK) (hb : 1 ≤ bs) (hb' : bs ≤ 16) {n : Nat} {v : V} {ps : List NP}
    (hr : VorRepr g F vs I n v ps) : ∀ k ∈ (vorFun g F vs z I bs bf).keys v, Int16Poly k ∧ ∃ x, (vorFun g F vs z I bs bf).val k = some x := by
  have R := (A []).rnd
  have kw := (A []).tri.size.w2
  have kh := (A []).tri.size.h2
  obtain ⟨hd, hl, ops, m, v0, H, e, s⟩ := hr
  intro k hk
  obtain ⟨l, hl', rfl⟩ := List.mem_map.mp hk
  rw [vstrip_iter s] at hl'
  have hin := keys_in A S H e hl'
  refine ⟨fun q hq => ?_, polyValue_some R z hI (by omega) (by omega) hb hb' hin⟩
  have b := hin q hq
  have := b.x0; have := b.x1; have := b.y0; have := b.y1
  omega

/-- What holds as long as no panic occurs, for arithmetic meeting `VArith` for all histories, and at most 32767 points. -/
theorem vor_wlaws (A : ∀ ops, VArith g F I.w I.h ops) (S : SorterOK vs) (hI : I.OK) (hb : 1 ≤ bs) (hb' : bs ≤ 16)
    {n : Nat} (hn : n ≤ 32767) : WLaws (vorFun g F vs z I bs bf) Int16Poly Unit01 n (VorRepr g F vs I n) := by
  have R := (A []).rnd
  have hw : I.w ≤ 32767 := (A []).tri.size.w2.trans (by norm_num)
  have hh : I.h ≤ 32767 := (A []).tri.size.h2.trans (by norm_num)
  refine ⟨same_poly, ?_, ?_, fun v ps hr => vor_key A S hI hb hb' hr⟩
  · intro ps d0 d hl hd h0 h1
    obtain ⟨⟨m, H⟩, e⟩ := vor_build (g := g) (vs := vs) (z := z) (bs := bs) (bf := bf) R hw hh (by omega) hd
    rw [h0, Option.bind_some, h1] at e
    exact ⟨hd, hl, _, m, d, H, e, rfl⟩
  · intro v qs o ps ps' ms d' hr ho M h
    obtain ⟨hd, hl, ops, m, H, e⟩ := vor_update (z := z) (bs := bs) (bf := bf) R hw hh hn hr ho M
    rw [h, Option.map_some, eq_comm, Option.map_eq_some_iff] at e
    obtain ⟨v3, e3, s3⟩ := e
    exact ⟨hd, hl, ops, m, v3, H, e3, s3.symm⟩

/-- The laws, for arithmetic meeting `VArith` for all histories and never making corners clash, and at most 32767 points. -/
theorem vor_laws (A : ∀ ops, VArith g F I.w I.h ops) (C : NoClash F I.w I.h) (S : SorterOK vs) (hI : I.OK) (hb : 1 ≤ bs) (hb' : bs ≤ 16)
    {n : Nat} (hn : n ≤ 32767) : Laws (vorFun g F vs z I bs bf) Int16Poly Unit01 n (VorRepr g F vs I n) := by
  have R := (A []).rnd
  have hw : I.w ≤ 32767 := (A []).tri.size.w2.trans (by norm_num)
  have hh : I.h ≤ 32767 := (A []).tri.size.h2.trans (by norm_num)
  have ok : ∀ {ops s m}, Hist I.w I.h ops s m → ∃ v, vExec g F vs I.w I.h ops = some v := fun H => by
    obtain ⟨v, e, -⟩ := c22_no_clash_partial (A _) H S (fun _ _ _ _ H' => C _ _ _ H')
    exact ⟨v, e⟩
  have W := vor_wlaws (z := z) (bf := bf) A S hI hb hb' hn
  refine ⟨W.same, ?_, ?_, W.key⟩
  · intro ps hl hd
    obtain ⟨⟨m, H⟩, e⟩ := vor_build (g := g) (vs := vs) (z := z) (bs := bs) (bf := bf) R hw hh (by omega) hd
    obtain ⟨v, e1⟩ := ok H
    rw [e1, eq_comm] at e
    obtain ⟨d0, h0, h1⟩ := Option.bind_eq_some_iff.mp e
    exact ⟨d0, v, h0, h1, W.build ps d0 v hl hd h0 h1⟩
  · intro v qs o ps ps' ms hr ho M
    obtain ⟨hd, hl, ops, m, H, e⟩ := vor_update (z := z) (bs := bs) (bf := bf) R hw hh hn hr ho M
    obtain ⟨v3, e3⟩ := ok H
    rw [e3, Option.map_some, Option.map_eq_some_iff] at e
    obtain ⟨d', h1, -⟩ := e
    exact ⟨d', h1, W.upd v qs o ps ps' ms d' hr ho M h1⟩

end Verif.Alg

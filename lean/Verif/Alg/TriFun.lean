import Verif.Alg.Laws
import Verif.Props.FitnessBound

/-!
# The triangle fitness function as an instance, and its laws
-/

namespace Verif.Alg

open Verif.Tri Verif.Spec Verif.Float Verif.Raster Verif.Fit Verif.Props
open Verif.Incr hiding trunc step run Entry

/-- cache.go 42-47 `TriangleCacheData.Hash`, a uint64. -/
def triHash (t : Tri) : Nat := (((97 + (t.a.x + t.b.x + t.c.x)) * 97 + (t.a.y + t.b.y + t.c.y)) % 2 ^ 64).toNat

/-- triangles.go: the parts of `trianglesImageFunction` for the image `I` and block size `bs`.  `bf` gives the reused buffers of
`Set`. -/
def triFun (g : Geo) (fl : ℚ → ℚ) (z : ℚ) (I : Img) (bs : Nat) (bf : D → D → Bufs) : Fun D Tri where
  new := newDelaunay g I.w I.h
  ins d p := insert g d (createPoint fl p I.w I.h)
  rem d p := remove g fl d (createPoint fl p I.w I.h)
  set d o := setFrom d (bf d o) o
  keys := iterTriangles
  hash := triHash
  same a b := decide (a = b)
  val := triValue fl z I bs
  fin l :=
    let r := l.foldl (fun (s : ℚ × ℚ) x => (fl (s.1 + x.2), fl (s.2 + areaTerm fl x.1))) (0, 0)
    finish fl I r.1 r.2

variable {g : Geo} {fl : ℚ → ℚ} {z : ℚ} {I : Img} {bs : Nat} {bf : D → D → Bufs}

/-- Without the cache the fitness is the one of `Fit/Model.lean`. -/
theorem plain_tri (d : D) : plain (triFun g fl z I bs bf) d = evalTris fl z I bs (iterTriangles d) := by
  have key : ∀ (T : List Tri) (s : ℚ × ℚ),
      T.foldlM (fun (s : ℚ × ℚ) t => (triValue fl z I bs t).map fun v => (fl (s.1 + v), fl (s.2 + areaTerm fl t))) s =
      (vals (triFun g fl z I bs bf) T).map fun l => l.foldl (fun (s : ℚ × ℚ) x => (fl (s.1 + x.2), fl (s.2 + areaTerm fl x.1))) s := by
    intro T
    induction T with
    | nil => intro s; rfl
    | cons t T ih =>
      intro s
      rw [List.foldlM_cons, vals_cons]
      change _ = ((triValue fl z I bs t).bind _).map _
      cases triValue fl z I bs t with
      | none => rfl
      | some v =>
        simp only [Option.map_some, Option.bind_eq_bind, Option.bind_some]
        rw [ih]
        cases vals (triFun g fl z I bs bf) T <;> rfl
  unfold plain evalTris
  rw [key]
  change (vals (triFun g fl z I bs bf) (iterTriangles d)).map _ = _
  cases vals (triFun g fl z I bs bf) (iterTriangles d) <;> rfl

theorem same_tri (ok : Tri → Prop) : SameOK (triFun g fl z I bs bf) ok := by
  intro a b _ _ h
  have : a = b := of_decide_eq_true h
  rw [this]

/-- Coordinates in [0, 1]. -/
def Unit01 (p : NP) : Prop := (0 ≤ p.x ∧ p.x ≤ 1) ∧ 0 ≤ p.y ∧ p.y ≤ 1

/-- The pixel points of a member. -/
def pix (fl : ℚ → ℚ) (I : Img) (ps : List NP) : List Pt := ps.map fun p => createPoint fl p I.w I.h

/-- `d` holds the triangulation of the points `ps`: up to the two counters that `Set` does not copy, it is the state reached by some
admissible sequence of `Insert` and `Remove` calls that leaves exactly these points. -/
def TriRepr (g : Geo) (fl : ℚ → ℚ) (I : Img) (n : Nat) (d : D) (ps : List NP) : Prop :=
  (∀ p ∈ ps, Unit01 p) ∧ ps.length = n ∧
  ∃ ops m d0, Hist I.w I.h ops ↑(pix fl I ps) m ∧ exec g fl I.w I.h ops = some d0 ∧ strip d = strip d0

theorem hist_ins {w h : Nat} : ∀ (l : List Pt) {ops s m}, Hist w h ops s m → (∀ p ∈ l, InImg w h p) → s.card + l.length ≤ 32767 →
    ∃ m', Hist w h (ops ++ l.map Op.ins) (s + ↑l) m' := by
  intro l
  induction l with
  | nil => intro ops s m H _ _; exact ⟨m, by simpa using H⟩
  | cons p l ih =>
    intro ops s m H hi hc
    simp only [List.length_cons] at hc
    have H1 := H.ins p (hi p (by simp)) (lt_of_le_of_lt (Multiset.count_le_card _ _) (by omega))
      ((Multiset.card_le_card (Multiset.dedup_le _)).trans (by rw [Multiset.card_cons]; omega))
    obtain ⟨m', H2⟩ := ih H1 (fun q hq => hi q (by simp [hq])) (by rw [Multiset.card_cons]; omega)
    refine ⟨m', ?_⟩
    have e1 : ops ++ [Op.ins p] ++ l.map Op.ins = ops ++ (p :: l).map Op.ins := by simp
    have e2 : p ::ₘ s + (l : Multiset Pt) = s + ((p :: l : List Pt) : Multiset Pt) := by
      rw [← Multiset.cons_coe, Multiset.add_cons, Multiset.cons_add]
    rw [← e1, ← e2]
    exact H2

theorem hist_rem {w h : Nat} : ∀ (l : List Pt) {ops s m}, Hist w h ops (↑l + s) m → Hist w h (ops ++ l.map Op.rem) s m := by
  intro l
  induction l with
  | nil => intro ops s m H; simpa using H
  | cons p l ih =>
    intro ops s m H
    have e2 : ((p :: l : List Pt) : Multiset Pt) + s = p ::ₘ (↑l + s) := by rw [← Multiset.cons_coe, Multiset.cons_add]
    rw [e2] at H
    have H1 := H.rem p (Multiset.mem_cons_self _ _)
    rw [Multiset.erase_cons_head] at H1
    have := ih H1
    simpa using this

theorem exec_append (g : Geo) (fl : ℚ → ℚ) (w h : Nat) (a b : List Op) :
    exec g fl w h (a ++ b) = (exec g fl w h a).bind (fun d => Incr.run g fl d b) := by
  unfold exec
  cases newDelaunay g w h with
  | none => rfl
  | some d =>
    simp only [Option.bind_eq_bind, Option.bind_some]
    unfold Incr.run
    rw [List.foldlM_append]
    rfl

theorem ins_run (d : D) (ps : List NP) : insAll (triFun g fl z I bs bf) d ps = Incr.run g fl d ((pix fl I ps).map Op.ins) := by
  unfold insAll Incr.run pix
  rw [List.foldlM_map, List.foldlM_map]
  rfl

theorem muts_run (d : D) (ms : List Mut) : applyMuts (triFun g fl z I bs bf) d ms =
    Incr.run g fl d ((pix fl I (ms.map Mut.old)).map Op.rem ++ (pix fl I (ms.map Mut.new)).map Op.ins) := by
  have h := ins_run (g := g) (fl := fl) (z := z) (I := I) (bs := bs) (bf := bf)
  unfold applyMuts Incr.run
  rw [List.foldlM_append]
  have e : (ms.map Mut.old).foldlM (triFun g fl z I bs bf).rem d = ((pix fl I (ms.map Mut.old)).map Op.rem).foldlM (Incr.step g fl) d := by
    unfold pix
    simp only [List.foldlM_map]
    rfl
  rw [e]
  cases ((pix fl I (ms.map Mut.old)).map Op.rem).foldlM (Incr.step g fl) d with
  | none => rfl
  | some d' =>
    simp only [Option.bind_eq_bind, Option.bind_some]
    exact h d' (ms.map Mut.new)

theorem strip_pm {d d' : D} (h : strip d = strip d') : d.pm = d'.pm := by
  have : (strip d).pm = (strip d').pm := by rw [h]
  exact this

theorem strip_iter {d d' : D} (h : strip d = strip d') : iterTriangles d = iterTriangles d' := by
  have : iterTriangles (strip d) = iterTriangles (strip d') := by rw [h]
  exact this

/-- Pixel points of points in the unit square are in the image. -/
theorem pix_img (R : Rnd 53 fl) (hw : I.w ≤ 32767) (hh : I.h ≤ 32767) {ps : List NP} (h : ∀ p ∈ ps, Unit01 p) :
    ∀ q ∈ pix fl I ps, InImg I.w I.h q := by
  intro q hq
  obtain ⟨p, hp, rfl⟩ := List.mem_map.mp hq
  obtain ⟨a, b, c, d⟩ := c39_in_image R hw hh p (h p hp)
  exact ⟨a, b, c, d⟩

/-- The laws, for arithmetic meeting `Arith` for all histories and at most 32767 points. -/
theorem tri_laws (R : Rnd 53 fl) (A : ∀ ops, Arith g fl I.w I.h ops) (hI : I.OK) (hb : 1 ≤ bs) (hb' : bs ≤ 16) {n : Nat} (hn : n ≤ 32767) :
    Laws (triFun g fl z I bs bf) (fun t => InImage I.w I.h t ∧ NonDegenerate t) Unit01 n (TriRepr g fl I n) := by
  have hw : I.w ≤ 32767 := (A []).size.w2.trans (by norm_num)
  have hh : I.h ≤ 32767 := (A []).size.h2.trans (by norm_num)
  refine ⟨same_tri _, ?_, ?_, ?_⟩
  · intro ps hl hd
    obtain ⟨m, H⟩ := hist_ins (pix fl I ps) (Hist.nil (w := I.w) (h := I.h)) (pix_img R hw hh hd) (by simp [pix]; omega)
    rw [List.nil_append, zero_add] at H
    obtain ⟨d, e⟩ := c06_c07_run_ok_partial (A _) H
    have e' := e
    unfold exec at e'
    simp only [Option.bind_eq_bind, Option.bind_eq_some_iff] at e'
    obtain ⟨d0, h0, h1⟩ := e'
    exact ⟨d0, d, h0, by rw [ins_run]; exact h1, hd, hl, _, _, d, H, e, rfl⟩
  · rintro d qs o ps ps' ms ⟨-, -, ops1, m1, d1, H1, e1, s1⟩ ⟨hd, hl, ops, m, d0, H, e, s0⟩ M
    obtain ⟨rest, b1, b2⟩ := M.bag
    have H2 : Hist I.w I.h (ops ++ (pix fl I (ms.map Mut.old)).map Op.rem) ↑(pix fl I rest) m := by
      refine hist_rem _ ?_
      have : ((pix fl I (ms.map Mut.old) : List Pt) : Multiset Pt) + ↑(pix fl I rest) = ↑(pix fl I ps) := by
        rw [Multiset.coe_add, Multiset.coe_eq_coe]
        unfold pix
        rw [← List.map_append]
        exact (b1.map _).symm
      rw [this]
      exact H
    have hd' := M.domain hd
    have hl' : ps'.length = n := M.len.trans hl
    have hnew : ∀ q ∈ pix fl I (ms.map Mut.new), InImg I.w I.h q := by
      refine pix_img R hw hh ?_
      intro p hp
      obtain ⟨m, hm, rfl⟩ := List.mem_map.mp hp
      exact M.dom m hm
    have hcard : rest.length + ms.length = n := by
      have := b2.length_eq
      simp only [List.length_append, List.length_map] at this
      omega
    obtain ⟨m', H3⟩ := hist_ins _ H2 hnew (by simp [pix]; omega)
    have eb : ((pix fl I rest : List Pt) : Multiset Pt) + ↑(pix fl I (ms.map Mut.new)) = ↑(pix fl I ps') := by
      rw [Multiset.coe_add, Multiset.coe_eq_coe]
      unfold pix
      rw [← List.map_append]
      exact ((b2.trans List.perm_append_comm).map _).symm
    rw [eb, List.append_assoc] at H3
    obtain ⟨d3, e3⟩ := c06_c07_run_ok_partial (A _) H3
    have e3' := e3
    rw [exec_append, e] at e3'
    simp only [Option.bind_some] at e3'
    have pml : d.pm.length = o.pm.length := by
      rw [strip_pm s1, strip_pm s0, exec_pmlen e1, exec_pmlen e]
    have st : strip ((triFun g fl z I bs bf).set d o) = strip d0 := (setFrom_strip d (bf d o) o pml).trans s0
    have rs := run_strip g fl ((pix fl I (ms.map Mut.old)).map Op.rem ++ (pix fl I (ms.map Mut.new)).map Op.ins) st
    rw [e3', Option.map_some, Option.map_eq_some_iff] at rs
    obtain ⟨d', h1, h2⟩ := rs
    exact ⟨d', by rw [muts_run]; exact h1, hd', hl', _, m', d3, H3, e3, h2⟩
  · rintro d ps ⟨hd, hl, ops, m, d0, H, e, s⟩ t ht
    have ht' : t ∈ iterTriangles d0 := by rw [← strip_iter s]; exact ht
    have M := mesh_of (A ops) H e
    refine ⟨⟨M.img t ht', M.nondeg t ht'⟩, ?_⟩
    change ∃ v, triValue fl z I bs t = some v
    unfold triValue
    rw [triSums_of R z hI (by omega) (by omega) hb hb' (M.img t ht') (M.nondeg t ht')]
    exact ⟨_, rfl⟩

end Verif.Alg

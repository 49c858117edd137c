import Verif.Props.Modified
import Verif.Props.Simple
import Verif.Props.FitnessPos
import Verif.Props.Complete

/-!
# The modified genetic algorithm on the triangle fitness function (C42-C48, C64)

Instances of the theorems of `Props/Modified.lean`, under the conditions `TriSetting` of `Props/Simple.lean` and `2 * cutoff ≤ size`.
-/

namespace Verif.Props

open Verif.Tri Verif.Spec Verif.Float Verif.Raster Verif.Fit Verif.Alg
open Verif.Incr hiding trunc step run Entry

variable {g : Geo} {fl : ℚ → ℚ} {I : Img} {bs N : Nat} {srt : Sorter} {cutoff : Nat} {init : List (List NP)} {k : Nat} {z : ℚ} {bf : D → D → Bufs}

theorem TriSetting.msetting (S : TriSetting g fl I bs N srt cutoff init k) (h2 : 2 * cutoff ≤ init.length) (z : ℚ) (bf : D → D → Bufs) :
    MSetting (triFun g fl z I bs bf) (fun t => InImage I.w I.h t ∧ NonDegenerate t) Unit01 N (TriRepr g fl I N) srt cutoff init k :=
  ⟨tri_laws S.rnd S.arith S.img S.bs1 S.bs2 S.points, S.sort, S.exponent, S.cutoff1, h2, S.init⟩

/-- **C42** for the modified algorithm on triangles (partial: under `Arith`, positive fitnesses). -/
theorem c42_modified_triangles_partial (S : TriSetting g fl I bs N srt cutoff init k) (h2 : 2 * cutoff ≤ init.length) {n : Nat} {a a' : Algo D Tri}
    {μ : Mutator} {l : List Who} (h : PosExec (triFun g fl z I bs bf) srt cutoff Unit01 N init k n a) (hF : FrontPos cutoff a) (hμ : MutOK Unit01 N μ)
    (hs : ModStep (triFun g fl z I bs bf) srt cutoff μ l a a') : a.bestFit ≤ a'.bestFit :=
  c42_modified_partial (S.msetting h2 z bf) h hF hμ hs

/-- **C43** for the modified algorithm on triangles (partial: under `Arith`, positive fitnesses): the best fitness is that of the triangles of
a triangulation that holds exactly the best points. -/
theorem c43_modified_triangles_partial (S : TriSetting g fl I bs N srt cutoff init k) (h2 : 2 * cutoff ≤ init.length) {n : Nat} {a : Algo D Tri}
    (h : PosExec (triFun g fl z I bs bf) srt cutoff Unit01 N init k n a) (hF : FrontPos cutoff a) :
    a.pop[0]? = some a.best ∧ a.fit[0]? = some a.bestFit ∧ a.fit.length = a.pop.length ∧ (∀ v ∈ a.fit, v ≤ a.bestFit) ∧
      ∃ ops m d, Hist I.w I.h ops ↑(pix fl I a.best) m ∧ exec g fl I.w I.h ops = some d ∧ evalTris fl z I bs (iterTriangles d) = some a.bestFit := by
  obtain ⟨e1, e2, e3, e4, d, ⟨_, _, ops, m, d0, H, e, hs⟩, e5⟩ := c43_modified_partial (S.msetting h2 z bf) h hF
  refine ⟨e1, e2, e3, e4, ops, m, d0, H, e, ?_⟩
  have it : ∀ x : D, iterTriangles x = iterTriangles (strip x) := fun _ => rfl
  rw [it, ← hs, ← it, ← plain_tri]
  exact e5

/-- **C44** for the modified algorithm on triangles (partial: under `Arith`, positive fitnesses). -/
theorem c44_modified_triangles_partial (S : TriSetting g fl I bs N srt cutoff init k) (h2 : 2 * cutoff ≤ init.length) {n : Nat} {a : Algo D Tri}
    (h : PosExec (triFun g fl z I bs bf) srt cutoff Unit01 N init k n a) :
    a.gen = n ∧ a.pop.length = init.length ∧ ∀ p ∈ a.pop, p.length = N ∧ ∀ q ∈ p, Unit01 q :=
  c44_modified_partial (S.msetting h2 z bf) h

/-- **C47** for the modified algorithm on triangles (partial: under `Arith`, positive fitnesses). -/
theorem c47_modified_triangles_partial (S : TriSetting g fl I bs N srt cutoff init k) (h2 : 2 * cutoff ≤ init.length) {b : Algo D Tri}
    (hb : ModStart (triFun g fl z I bs bf) srt cutoff Unit01 N init k b) :
    ∃ bound, ∀ l p, Run (triFun g fl z I bs bf) (b.pop.length - cutoff) (ptsOf b) (mutsOf b) (Ph.start b.sys) l p →
      (∀ w, Enabled (b.pop.length - cutoff) p w → (move (triFun g fl z I bs bf) (b.pop.length - cutoff) (ptsOf b) (mutsOf b) p w).isSome) ∧
      p.chan.length ≤ b.pop.length ∧
      (¬ p.Finished (b.pop.length - cutoff) → ∃ w, Enabled (b.pop.length - cutoff) p w) ∧
      l.length ≤ bound ∧
      (p.Finished (b.pop.length - cutoff) → (p.arr.map Prod.fst).Perm (List.range (b.pop.length - cutoff)) ∧ p.chan = [] ∧
        ∀ w, ¬ Enabled (b.pop.length - cutoff) p w) :=
  c47_modified_partial (S.msetting h2 z bf) hb

/-- **C48** for the modified algorithm on triangles (partial: under `Arith`, positive fitnesses). -/
theorem c48_modified_triangles_partial (S : TriSetting g fl I bs N srt cutoff init k) (h2 : 2 * cutoff ≤ init.length) {b : Algo D Tri}
    (hb : ModStart (triFun g fl z I bs bf) srt cutoff Unit01 N init k b) {l : List Who} {p : Ph D Tri}
    (h : Run (triFun g fl z I bs bf) (b.pop.length - cutoff) (ptsOf b) (mutsOf b) (Ph.start b.sys) l p) :
    ¬ ∃ w w', w ≠ w' ∧ Enabled (b.pop.length - cutoff) p w ∧ Enabled (b.pop.length - cutoff) p w' ∧
      ∃ x ∈ writes (b.pop.length - cutoff) p w,
        x ∈ reads (triFun g fl z I bs bf) (b.pop.length - cutoff) p w' ∨ x ∈ writes (b.pop.length - cutoff) p w' :=
  c48_modified_partial (S.msetting h2 z bf) hb h

/-- **C64** on triangles (partial: under `Arith`, positive fitnesses). -/
theorem c64_modified_triangles_partial (S : TriSetting g fl I bs N srt cutoff init k) (h2 : 2 * cutoff ≤ init.length) {n : Nat} {a : Algo D Tri}
    (h : PosExec (triFun g fl z I bs bf) srt cutoff Unit01 N init k n a) (hF : FrontPos cutoff a) {i : Nat} {ps : List NP} (hi : a.pop[i]? = some ps) :
    (∃ id d v, a.sys.slots[i]? = some id ∧ (a.sys.fns id).tri = some d ∧ a.fit[i]? = some v ∧ evalTris fl z I bs (iterTriangles d) = some v ∧
      ∃ ops m d0, Hist I.w I.h ops ↑(pix fl I ps) m ∧ exec g fl I.w I.h ops = some d0 ∧ iterTriangles d = iterTriangles d0) ∨
      (a.fit[i]? = some 0 ∧ init.length - cutoff ≤ i) := by
  rcases c64_modified_partial (S.msetting h2 z bf) h hF hi with ⟨id, d, v, e1, e2, ⟨_, _, ops, m, d0, H, e, hs⟩, e3, e4⟩ | e
  · refine Or.inl ⟨id, d, v, e1, e2, e3, by rw [← plain_tri]; exact e4, ops, m, d0, H, e, ?_⟩
    have it : ∀ x : D, iterTriangles x = iterTriangles (strip x) := fun _ => rfl
    rw [it, hs, ← it]
  · exact Or.inr e

/-! ### C73: the fitnesses in front are positive -/

/-- Every triangulation of the points reports a triangle. -/
def Spanning (g : Geo) (fl : ℚ → ℚ) (I : Img) (N : Nat) (ps : List NP) : Prop := ∀ d, TriRepr g fl I N d ps → iterTriangles d ≠ []

/-- Three points with an empty circle suffice (C74). -/
theorem spanning_of_circle {fl : ℚ → ℚ} {I : Img} {N : Nat} {ps : List NP} (A : ∀ ops, Arith g fl I.w I.h ops) {t : Tri} {o : P2}
    (hs : t.a ∈ pix fl I ps ∧ t.b ∈ pix fl I ps ∧ t.c ∈ pix fl I ps) (hn : NonDegenerate t) (hc : Centre t o)
    (ho : ∀ v, (v ∈ pix fl I ps ∨ IsVertex (newSuperTriangle I.w I.h) v) → ¬ IsVertex t v → d2 o t.a < d2 o v) : Spanning g fl I N ps := by
  rintro d ⟨_, _, ops, m, d0, H, e, hst⟩ hnil
  have it : ∀ x : D, iterTriangles x = iterTriangles (strip x) := fun _ => rfl
  rw [it, hst, ← it] at hnil
  obtain ⟨t', ht', _⟩ := c74_complete_partial (A ops) H e (by simpa using hs) hn hc (by simpa using ho)
  rw [hnil] at ht'
  cases ht'

/-- Some triangulation of the points reports a triangle. -/
def Spannable (g : Geo) (fl : ℚ → ℚ) (I : Img) (N : Nat) (ps : List NP) : Prop := ∃ d, TriRepr g fl I N d ps ∧ iterTriangles d ≠ []

section
variable {w h : Nat} {px : Nat → Nat → Fin 256 × Fin 256 × Fin 256}

/-- The fitness of an 8-bit image is positive exactly if the triangulation reports a triangle. -/
theorem tri_positive (S : TriSetting g (rne 53) (ofBytes (rne 53) w h px) bs N srt cutoff init k) (hwh : w * h ≤ 6800000) {d : D} {ps : List NP} {v : ℚ}
    (hr : TriRepr g (rne 53) (ofBytes (rne 53) w h px) N d ps) (hv : plain (triFun g (rne 53) z (ofBytes (rne 53) w h px) bs bf) d = some v) :
    0 < v ↔ iterTriangles d ≠ [] := by
  obtain ⟨_, _, ops, m, d0, H, e, hs⟩ := hr
  have it : ∀ x : D, iterTriangles x = iterTriangles (strip x) := fun _ => rfl
  rw [plain_tri, it, hs, ← it] at hv
  rw [it d, hs, ← it]
  obtain ⟨v', hv', h1, h2, _⟩ := c73_triangulation_partial (w := w) (h := h) (S.arith ops) H e hwh z px S.bs1 S.bs2
  rw [hv] at hv'
  cases hv'
  refine ⟨?_, h2⟩
  intro h0 hnil
  rw [h1 hnil] at h0
  exact lt_irrefl _ h0

/-- **C73** for the modified algorithm (partial: under `Arith`, images of at most 6800000 pixels): if the initial members span a triangle and mutations of
members that do so span one, the fitnesses of all members but the last `cutoff` are positive before every step.  So the other theorems of this file
apply to all such executions. -/
theorem c73_modified_partial (S : TriSetting g (rne 53) (ofBytes (rne 53) w h px) bs N srt cutoff init k) (h2 : 2 * cutoff ≤ init.length) (hwh : w * h ≤ 6800000)
    (hi : ∀ p ∈ init, Spanning g (rne 53) (ofBytes (rne 53) w h px) N p) {n : Nat} {a : Algo D Tri}
    (he : ModExec (triFun g (rne 53) z (ofBytes (rne 53) w h px) bs bf) srt cutoff
      (fun μ => MutOK Unit01 N μ ∧ ∀ i q, Spannable g (rne 53) (ofBytes (rne 53) w h px) N q → Spanning g (rne 53) (ofBytes (rne 53) w h px) N (μ i q).1)
      (fun _ => True) init k n a) :
    PosExec (triFun g (rne 53) z (ofBytes (rne 53) w h px) bs bf) srt cutoff Unit01 N init k n a ∧ FrontPos cutoff a :=
  (S.msetting h2 z bf).spanExec (fun _ _ _ hr hs hv => (tri_positive S hwh hr hv).mpr (hs _ hr))
    (fun d _ _ hr hv h0 => ⟨d, hr, (tri_positive S hwh hr hv).mp h0⟩) hi he

end

/-! ### The conditions can be met -/

/-- Three members of three points; the third is left out by the constructor. -/
def trio2 : List (List NP) :=
  [[⟨0, 0⟩, ⟨1, 0⟩, ⟨1 / 2, 1⟩], [⟨0, 0⟩, ⟨1, 1⟩, ⟨0, 1⟩], [⟨1 / 8, 3 / 4⟩, ⟨1, 1⟩, ⟨1, 1⟩]]

/-- No stale buffer contents. -/
def noBufs : D → D → Bufs := fun _ _ => ⟨[], [], fun _ _ => [], fun _ => []⟩

/-- The triangle fitness of an 8 x 8 checkerboard in IEEE arithmetic. -/
def smallFun : Fun D Tri := triFun (gridGeo ieee 8 8) (rne 53) 0 (checker (rne 53) 8 8) 3 noBufs

/-- The constructor of the example, evaluating member 0 first. -/
def smallNew : Option (Algo D Tri) := playNewMod smallFun selSorter 1 trio2 4 (inOrder 2 (fun _ => 1) [0, 1])

theorem trio2_setting : TriSetting (gridGeo ieee 8 8) (rne 53) (checker (rne 53) 8 8) 3 3 selSorter 1 trio2 4 := by
  refine tri_setting_ieee ⟨by norm_num, by norm_num, by norm_num, by norm_num, by norm_num⟩ (by decide) _ (by norm_num) (by norm_num) (by norm_num)
    selSorter_ok (by norm_num) le_rfl (by decide) ?_
  decide +kernel

theorem smallNew_front : (smallNew.map fun a => decide (a.pop.length = 3 ∧ a.fit.length = 3 ∧ 0 < a.fit.getD 0 0 ∧ 0 < a.fit.getD 1 0)) = some true := by
  decide +kernel

/-- An execution and a step to which the theorems of this file apply. -/
example : ∃ (a : Algo D Tri) (l : List Who) (a' : Algo D Tri), PosExec smallFun selSorter 1 Unit01 3 trio2 4 0 a ∧ FrontPos 1 a ∧
    ModStep smallFun selSorter 1 moveFirst l a a' ∧ a.bestFit ≤ a'.bestFit := by
  have h := smallNew_front
  cases e : smallNew with
  | none => rw [e] at h; cases h
  | some a =>
    rw [e] at h
    simp only [Option.map_some, Option.some.injEq, decide_eq_true_eq] at h
    obtain ⟨h1, h2, h3, h4⟩ := h
    have h0 : PosExec smallFun selSorter 1 Unit01 3 trio2 4 0 a := .new (playNewMod_ok e)
    have hF : FrontPos 1 a := by
      intro i hi
      rw [h1] at hi
      have hi' : i = 0 ∨ i = 1 := by omega
      have hg : a.fit[i]? = some (a.fit.getD i 0) := by
        rw [List.getD_eq_getElem?_getD, List.getElem?_eq_getElem (by omega)]; rfl
      refine ⟨_, hg, ?_⟩
      rcases hi' with rfl | rfl
      · exact h3
      · exact h4
    have M := trio2_setting.msetting (by decide) 0 noBufs
    obtain ⟨l, a', hs⟩ := M.step_exists h0 hF (moveFirst_ok 3)
    exact ⟨a, l, a', h0, hF, hs, c42_modified_triangles_partial trio2_setting (by decide) h0 hF (moveFirst_ok 3) hs⟩

/-- Three members of three points, each of which spans a triangle. -/
def trio3 : List (List NP) :=
  [[⟨0, 0⟩, ⟨1, 0⟩, ⟨1 / 2, 1⟩], [⟨0, 0⟩, ⟨1, 1⟩, ⟨0, 1⟩], [⟨1 / 8, 3 / 4⟩, ⟨1, 1⟩, ⟨1, 0⟩]]

theorem trio3_setting : TriSetting (gridGeo ieee 8 8) (rne 53) (checker (rne 53) 8 8) 3 3 selSorter 1 trio3 4 := by
  refine tri_setting_ieee ⟨by norm_num, by norm_num, by norm_num, by norm_num, by norm_num⟩ (by decide) _ (by norm_num) (by norm_num) (by norm_num)
    selSorter_ok (by norm_num) le_rfl (by decide) ?_
  decide +kernel

/-- Three points with this circle span a triangle. -/
theorem span3 {ps : List NP} {a b c : Pt} {o : P2} (hp : pix (rne 53) (checker (rne 53) 8 8) ps = [a, b, c]) (hn : NonDegenerate ⟨a, b, c⟩)
    (hc : Centre ⟨a, b, c⟩ o) (h1 : d2 o a < d2 o (newSuperTriangle 8 8).a) (h2 : d2 o a < d2 o (newSuperTriangle 8 8).b)
    (h3 : d2 o a < d2 o (newSuperTriangle 8 8).c) : Spanning (gridGeo ieee 8 8) (rne 53) (checker (rne 53) 8 8) 3 ps := by
  refine spanning_of_circle trio3_setting.arith (t := ⟨a, b, c⟩) (o := o) (by rw [hp]; simp) hn hc ?_
  rintro v (hv | rfl | rfl | rfl) hnv
  · rw [hp] at hv
    exact absurd (by simpa [IsVertex] using hv) hnv
  exacts [h1, h2, h3]

theorem trio3_span : ∀ p ∈ trio3, Spanning (gridGeo ieee 8 8) (rne 53) (checker (rne 53) 8 8) 3 p := by
  intro p hp
  simp only [trio3, List.mem_cons, List.not_mem_nil, or_false] at hp
  rcases hp with rfl | rfl | rfl
  · exact span3 (a := ⟨0, 0⟩) (b := ⟨8, 0⟩) (c := ⟨4, 8⟩) (o := ⟨4, 3⟩) (by decide +kernel) (by unfold NonDegenerate; decide +kernel)
      (by unfold Centre; decide +kernel) (by decide +kernel) (by decide +kernel) (by decide +kernel)
  · exact span3 (a := ⟨0, 0⟩) (b := ⟨8, 8⟩) (c := ⟨0, 8⟩) (o := ⟨4, 4⟩) (by decide +kernel) (by unfold NonDegenerate; decide +kernel)
      (by unfold Centre; decide +kernel) (by decide +kernel) (by decide +kernel) (by decide +kernel)
  · exact span3 (a := ⟨1, 6⟩) (b := ⟨8, 8⟩) (c := ⟨8, 0⟩) (o := ⟨75 / 14, 4⟩) (by decide +kernel) (by unfold NonDegenerate; decide +kernel)
      (by unfold Centre; decide +kernel) (by decide +kernel) (by decide +kernel) (by decide +kernel)

/-- Moves the three points of a member to three fixed places. -/
def moveThree : Mutator := fun _ ps =>
  match ps with
  | [p, q, r] => ([⟨0, 0⟩, ⟨1, 0⟩, ⟨1 / 2, 1⟩], [⟨p, ⟨0, 0⟩, 0⟩, ⟨q, ⟨1, 0⟩, 1⟩, ⟨r, ⟨1 / 2, 1⟩, 2⟩])
  | _ => (ps, [])

theorem moveThree_ok : MutOK Unit01 3 moveThree := by
  intro i ps hl _
  match ps, hl with
  | [p, q, r], _ =>
    refine ⟨rfl, by simp [moveThree], by simp [moveThree], by simp [moveThree], ?_, ?_⟩
    · intro j hj
      simp only [moveThree, List.mem_cons, List.not_mem_nil, or_false, forall_eq_or_imp, forall_eq] at hj
      match j, hj with
      | j + 3, _ => rfl
    · intro m hm
      simp only [moveThree, List.mem_cons, List.not_mem_nil, or_false] at hm
      rcases hm with rfl | rfl | rfl <;> unfold Unit01 <;> norm_num

theorem moveThree_span (i : Nat) (q : List NP) (hq : Spannable (gridGeo ieee 8 8) (rne 53) (checker (rne 53) 8 8) 3 q) :
    Spanning (gridGeo ieee 8 8) (rne 53) (checker (rne 53) 8 8) 3 (moveThree i q).1 := by
  obtain ⟨d, ⟨_, hl, _⟩, _⟩ := hq
  match q, hl with
  | [_, _, _], _ => exact trio3_span _ (by simp [trio3, moveThree])

/-- Executions of all lengths with this mutator exist and meet the conditions of the theorems of this file. -/
example (n : Nat) : ∃ a, PosExec smallFun selSorter 1 Unit01 3 trio3 4 n a ∧ FrontPos 1 a := by
  have M := trio3_setting.msetting (by decide) 0 noBufs
  have key : ∃ a, ModExec smallFun selSorter 1 (fun μ => MutOK Unit01 3 μ ∧ ∀ i q, Spannable (gridGeo ieee 8 8) (rne 53) (checker (rne 53) 8 8) 3 q →
      Spanning (gridGeo ieee 8 8) (rne 53) (checker (rne 53) 8 8) 3 (μ i q).1) (fun _ => True) trio3 4 n a := by
    induction n with
    | zero => obtain ⟨l, a, h⟩ := M.new_exists; exact ⟨a, .new h⟩
    | succ n ih =>
      obtain ⟨a, h⟩ := ih
      obtain ⟨h1, h2⟩ := c73_modified_partial trio3_setting (by decide) (by norm_num) trio3_span h
      obtain ⟨l, a', hs⟩ := M.step_exists h1 h2 moveThree_ok
      exact ⟨a', .step h trivial ⟨moveThree_ok, moveThree_span⟩ hs⟩
  obtain ⟨a, h⟩ := key
  exact ⟨a, c73_modified_partial trio3_setting (by decide) (by norm_num) trio3_span h⟩

end Verif.Props

import Verif.Small.Polygonate
import Verif.Props.VorAlg
import Verif.Props.VorGeom
import Verif.Props.Small

/-!
# The exported polygons are the evaluated ones (C79)

`Polygonate` rounds with `math.Round`, the polygon fitness function with `fastRound`.  The two differ for one float64 only, the one just
below one half (`c79_round`, `c79_round_false`).
-/

namespace Verif.Props

open Verif.Tri Verif.Spec Verif.Float Verif.Raster Verif.Fit Verif.Alg Verif.Small
open Verif.Vor hiding Sorter
open Verif.Incr hiding trunc step run Entry

variable {g : Geo} {F : FloatOps} {vs : Vor.Sorter} {w h : Nat} {ps : List NP}

/-- **C79**, rounding: for every float64 from -1/4 to 2^51 but one, `fastRound` and `math.Round` give the same integer. -/
theorem c79_round {v : ℚ} (h0 : -(1 / 4) ≤ v) (h1 : v ≤ 2 ^ 51) (hv : Rep 53 v) (hne : v ≠ 1 / 2 - 1 / 2 ^ 54) :
    fastRound (rne 53) v = mathRound v :=
  round_agree (rne_rnd (by norm_num)) h0 h1 hv hne

/-- They do differ for that one, which is a float64. -/
theorem c79_round_false : Rep 53 (1 / 2 - 1 / 2 ^ 54) ∧ fastRound (rne 53) (1 / 2 - 1 / 2 ^ 54) = 1 ∧ mathRound (1 / 2 - 1 / 2 ^ 54) = 0 :=
  ⟨⟨2 ^ 53 - 1, -54, by norm_num, by norm_num⟩, by decide +kernel, by decide +kernel⟩

example : fastRound (rne 53) (5 / 2) = 3 ∧ mathRound (5 / 2) = 3 :=
  ⟨(c79_round (by norm_num) (by norm_num) ⟨5, -1, by norm_num, by norm_num⟩ (by norm_num)).trans (by decide +kernel), by decide +kernel⟩

/-- Results of float operations are float64 and float32 numbers, or there is no rounding. -/
def Stores (F : FloatOps) : Prop := (∀ x, Rep 53 (F.r64 x) ∧ Rep 24 (F.r32 x)) ∨ ((∀ x, F.r64 x = x) ∧ ∀ x, F.r32 x = x)

theorem stores_ieee : Stores ieee := Or.inl fun x => ⟨rne_rep 53 x, rne_rep 24 x⟩

theorem stores_exact : Stores exactOps := Or.inr ⟨fun _ => rfl, fun _ => rfl⟩

/-- A coordinate that both functions round to the same integer. -/
def Agrees (F : FloatOps) (x : ℚ) : Prop := fastRound F.r64 x = mathRound x

theorem agrees_r64 (R : Rnd 53 F.r64) (S : Stores F) {x : ℚ} (h0 : -(1 / 4) ≤ F.r64 x) (h1 : F.r64 x ≤ 2 ^ 51) (hne : F.r64 x ≠ 1 / 2 - 1 / 2 ^ 54) :
    Agrees F (F.r64 x) := by
  rcases S with S | S
  · exact round_agree R h0 h1 (S x).1 hne
  · exact round_agree_id S.1 h0

theorem agrees_r32 (R : Rnd 53 F.r64) (S : Stores F) {x : ℚ} (h0 : -(1 / 4) ≤ F.r32 x) (h1 : F.r32 x ≤ 2 ^ 51) (hne : F.r32 x ≠ 1 / 2 - 1 / 2 ^ 54) :
    Agrees F (F.r32 x) := by
  rcases S with S | S
  · obtain ⟨m, e, hm, hx⟩ := (S x).2
    exact round_agree R h0 h1 ⟨m, e, hm.trans (by norm_num), hx⟩ hne
  · exact round_agree_id S.1 h0

theorem agrees_nat (R : Rnd 53 F.r64) {n : Nat} (hn : n ≤ 8191) : Agrees F n := by
  have hn' : (n : ℚ) ≤ 8191 := by exact_mod_cast hn
  have n0 : (0 : ℚ) ≤ n := by positivity
  refine round_agree R (by linarith) (by norm_num; linarith) ⟨n, 0, by rw [abs_of_nonneg (by positivity)]; norm_num; omega, by simp⟩ ?_
  intro e
  unfold belowHalf at e
  rcases Nat.eq_zero_or_pos n with rfl | hp
  · norm_num at e
  · have : (1 : ℚ) ≤ n := by exact_mod_cast hp
    norm_num at e
    linarith

/-- Bounds on the coordinates of vertices. -/
theorem vertex_range (R : Rnd 53 F.r64) {n : Nat} (hn : n ≤ 8191) {x : ℚ} (h0 : -F.r64 (1 / 10000) ≤ x) (h1 : x ≤ F.r64 (n + F.r64 (1 / 10000))) :
    -(1 / 5000) ≤ x ∧ x ≤ n + 1 / 1000 := by
  have hn' : (n : ℚ) ≤ 8191 := by exact_mod_cast hn
  have n0 : (0 : ℚ) ≤ n := by positivity
  have e1 := abs_le.mp (R.err (1 / 10000))
  rw [abs_of_nonneg (by norm_num : (0 : ℚ) ≤ 1 / 10000)] at e1
  have he : F.r64 (1 / 10000) ≤ 1 / 5000 := by have := e1.2; norm_num at this ⊢; linarith
  have h0' : 0 ≤ F.r64 (1 / 10000) := (eps_pos R).le
  have e2 := (abs_le.mp (R.err (n + F.r64 (1 / 10000)))).2
  rw [abs_of_nonneg (by linarith)] at e2
  refine ⟨by linarith, ?_⟩
  norm_num at e2
  linarith

/-- The coordinates of the polygons round to pixels of the image. -/
theorem mathRound_in {n : Nat} {x : ℚ} (h0 : -(1 / 5000) ≤ x) (h1 : x ≤ n + 1 / 1000) : 0 ≤ mathRound x ∧ mathRound x ≤ n := by
  unfold mathRound
  split_ifs with h
  · refine ⟨Int.floor_nonneg.mpr (by linarith), ?_⟩
    have : ⌊x + 1 / 2⌋ < (n : ℤ) + 1 := Int.floor_lt.mpr (by push_cast; linarith)
    omega
  · have : ⌊-x + 1 / 2⌋ = 0 := by rw [Int.floor_eq_iff]; constructor <;> push_cast <;> linarith
    rw [this]
    exact ⟨le_rfl, by simp⟩

/-- The vertices of a polygon round the same way in both functions, unless a coordinate is the exceptional one. -/
theorem vertex_agrees (R : Rnd 53 F.r64) (T : Stores F) (k : SizeOk w h) {s : Multiset Pt} {q : Pt} {cs pts : List FP} (hl : ListsCorners F w h s q cs)
    (hp : pts.Perm cs) {c : FP} (hc : ClipVertex F w h pts c) (h1 : c.1 ≠ 1 / 2 - 1 / 2 ^ 54) (h2 : c.2 ≠ 1 / 2 - 1 / 2 ^ 54) :
    Agrees F c.1 ∧ Agrees F c.2 := by
  obtain ⟨b1, b2, b3, b4⟩ := clipVertex_bounds R k hc
  obtain ⟨x1, x2⟩ := vertex_range R k.w2 b1 b2
  obtain ⟨y1, y2⟩ := vertex_range R k.h2 b3 b4
  have hw' : (w : ℚ) ≤ 8191 := by exact_mod_cast k.w2
  have hh' : (h : ℚ) ≤ 8191 := by exact_mod_cast k.h2
  have big : (8191 : ℚ) + 1 / 1000 ≤ 2 ^ 51 := by norm_num
  cases hc with
  | corner hm _ =>
    obtain ⟨o, -, rfl⟩ := (hl.2 c).mp (hp.mem_iff.mp hm)
    simp only [stored] at x1 x2 y1 y2 h1 h2
    exact ⟨agrees_r32 R T (by linarith) (by linarith) h1, agrees_r32 R T (by linarith) (by linarith) h2⟩
  | @cut a b q e _ he hq =>
    unfold segmentsIntersect at hq
    simp only at hq
    split_ifs at hq
    cases hq
    exact ⟨agrees_r64 R T (by linarith) (by linarith) h1, agrees_r64 R T (by linarith) (by linarith) h2⟩
  | @image e he _ =>
    simp only [edges, List.mem_cons, List.not_mem_nil, or_false] at he
    have z : Agrees F (0 : ℚ) := by simpa using agrees_nat (F := F) R (n := 0) (by norm_num)
    rcases he with rfl | rfl | rfl | rfl
    · exact ⟨agrees_nat R k.w2, z⟩
    · exact ⟨agrees_nat R k.w2, agrees_nat R k.h2⟩
    · exact ⟨z, agrees_nat R k.h2⟩
    · exact ⟨z, z⟩

/-- Points round the same way in both functions, unless a coordinate is the exceptional one. -/
theorem roundPoint_eq (R : Rnd 53 F.r64) (T : Stores F) (k : SizeOk w h) {p : NP} (hp : Unit01 p) (h1 : F.r64 (p.x * w) ≠ 1 / 2 - 1 / 2 ^ 54)
    (h2 : F.r64 (p.y * h) ≠ 1 / 2 - 1 / 2 ^ 54) : roundPoint F.r64 w h p = createPoint F.r64 p w h := by
  have key : ∀ (n : Nat) (x : ℚ), n ≤ 8191 → 0 ≤ x → x ≤ 1 → F.r64 (x * n) ≠ 1 / 2 - 1 / 2 ^ 54 → Agrees F (F.r64 (x * n)) := by
    intro n x hn x0 x1 hne
    have n0 : (0 : ℚ) ≤ n := by positivity
    have a0 : 0 ≤ F.r64 (x * n) := R.nonneg (by positivity)
    have a1 : F.r64 (x * n) ≤ (n : ℤ) := R.le_int (by rw [abs_of_nonneg (by positivity)]; norm_num; omega) (by push_cast; nlinarith)
    have hn' : (n : ℚ) ≤ 8191 := by exact_mod_cast hn
    push_cast at a1
    exact agrees_r64 R T (by linarith) (by norm_num; linarith) hne
  unfold roundPoint createPoint
  rw [key w p.x k.w2 hp.1.1 hp.1.2 h1, key h p.y k.h2 hp.2.1 hp.2.2 h2]

/-- Inserting points is a history of calls. -/
theorem exec_ins (fl : ℚ → ℚ) (l : List Pt) : exec g fl w h (l.map .ins) = (newDelaunay g w h).bind fun d => l.foldlM (insert g) d := by
  unfold exec
  cases newDelaunay g w h with
  | none => rfl
  | some d =>
    change Incr.run g fl d (l.map .ins) = l.foldlM (insert g) d
    unfold Incr.run
    rw [List.foldlM_map]
    rfl

/-- The points `Polygonate` inserts are points of the image. -/
theorem roundPoint_img (R : Rnd 53 F.r64) (k : SizeOk w h) {p : NP} (hp : Unit01 p) : InImg w h (roundPoint F.r64 w h p) := by
  have key : ∀ (n : Nat) (x : ℚ), n ≤ 8191 → 0 ≤ x → x ≤ 1 → 0 ≤ w16 (mathRound (F.r64 (x * n))) ∧ w16 (mathRound (F.r64 (x * n))) ≤ n := by
    intro n x hn x0 x1
    have n0 : (0 : ℚ) ≤ n := by positivity
    have a0 : 0 ≤ F.r64 (x * n) := R.nonneg (by positivity)
    have a1 : F.r64 (x * n) ≤ (n : ℤ) := R.le_int (by rw [abs_of_nonneg (by positivity)]; norm_num; omega) (by push_cast; nlinarith)
    push_cast at a1
    obtain ⟨a, b⟩ := mathRound_in (n := n) (x := F.r64 (x * n)) (by linarith) (by linarith)
    rw [w16_id (by omega) (by omega)]
    exact ⟨a, b⟩
  obtain ⟨a, b⟩ := key w p.x k.w2 hp.1.1 hp.1.2
  obtain ⟨c, d⟩ := key h p.y k.h2 hp.2.1 hp.2.2
  exact ⟨a, b, c, d⟩

/-- The triangulation `Polygonate` builds. -/
theorem polygonate_tri (A : ∀ ops, VArith g F w h ops) (hu : ∀ p ∈ ps, Unit01 p) (hl : ps.length ≤ 32767) :
    ∃ d, DInv g w h d ↑(ps.map (roundPoint F.r64 w h)) ∧
      polygonate g F vs w h ps = (voronoi g F vs w h d).map (·.map polygonateOne) := by
  obtain ⟨m, H⟩ := hist_ins (ps.map (roundPoint F.r64 w h)) (Hist.nil (w := w) (h := h)) (by
    intro q hq
    obtain ⟨p, hp, rfl⟩ := List.mem_map.mp hq
    exact roundPoint_img (A []).rnd (A []).tri.size (hu p hp)) (by simp; omega)
  rw [List.nil_append, zero_add] at H
  obtain ⟨d, e, i, -⟩ := exec_spec (A []).tri.size (A _).tri.geo (A _).tri.score H
  refine ⟨d, i, ?_⟩
  rw [exec_ins, Option.bind_eq_some_iff] at e
  obtain ⟨d0, h1, h2⟩ := e
  unfold polygonate
  rw [h1, Option.bind_eq_bind, Option.bind_some, h2, Option.bind_eq_bind, Option.bind_some]
  cases voronoi g F vs w h d <;> rfl

theorem mapM_out {α β : Type} (f : α → Option β) : ∀ (l : List α) (r : List β), l.mapM f = some r → r.length = l.length ∧ ∀ b ∈ r, ∃ a ∈ l, f a = some b
  | [], r, h => by
    rw [List.mapM_nil] at h
    cases h
    exact ⟨rfl, by simp⟩
  | a :: l, r, h => by
    rw [List.mapM_cons, Option.bind_eq_bind, Option.bind_eq_some_iff] at h
    obtain ⟨b, hb, h⟩ := h
    rw [Option.bind_eq_bind, Option.bind_eq_some_iff] at h
    obtain ⟨r', hr, h⟩ := h
    cases h
    obtain ⟨h1, h2⟩ := mapM_out f l r' hr
    refine ⟨by simp [h1], ?_⟩
    intro c hc
    rcases List.mem_cons.mp hc with rfl | hc
    · exact ⟨a, by simp, hb⟩
    · obtain ⟨a', ha, e⟩ := h2 c hc
      exact ⟨a', by simp [ha], e⟩

/-- **C79** (partial: under `VArith`): whenever `Polygonate` returns, every polygon has a vertex, every vertex is a point of the image, no two
neighbours in the list of vertices are equal, and there are no more polygons than distinct pixel points. -/
theorem c79_inside_partial (A : ∀ ops, VArith g F w h ops) (S : SorterOK vs) (hu : ∀ p ∈ ps, Unit01 p) (hl : ps.length ≤ 32767) {P : List (List Pt)}
    (e : polygonate g F vs w h ps = some P) :
    (∀ l ∈ P, l ≠ [] ∧ (∀ (i : Nat) a, l[i]? = some a → l[i + 1]? ≠ some a) ∧ ∀ q ∈ l, (0 ≤ q.x ∧ q.x ≤ w) ∧ 0 ≤ q.y ∧ q.y ≤ h) ∧
      P.length ≤ (ps.map (roundPoint F.r64 w h)).toFinset.card := by
  obtain ⟨d, i, e'⟩ := polygonate_tri (vs := vs) A hu hl
  rw [e] at e'
  obtain ⟨ls, h1, rfl⟩ := Option.map_eq_some_iff.mp e'.symm
  unfold voronoi at h1
  rw [Option.bind_eq_bind, Option.bind_eq_some_iff] at h1
  obtain ⟨r, h2, h3⟩ := h1
  cases h3
  obtain ⟨i1, i2⟩ := iterPoints_spec i.pm
  obtain ⟨len, out⟩ := mapM_out _ _ _ h2
  have R := (A []).rnd
  have k := (A []).tri.size
  constructor
  · intro l hl
    obtain ⟨c, hc, rfl⟩ := List.mem_map.mp hl
    obtain ⟨hc, hpos⟩ := List.mem_filter.mp hc
    obtain ⟨q, hq, hcell⟩ := out c hc
    have hq' : q ∈ ((ps.map (roundPoint F.r64 w h) : List Pt) : Multiset Pt) := Multiset.count_pos.mp ((i2 q).mp hq)
    obtain ⟨cs, c1, c2⟩ := cellOf_spec vs k R (Arith.all fun ops => (A ops).tri) (fun _ _ => trivial) i hq'
    rw [hcell] at c2
    obtain ⟨pts, -, hv⟩ := cellPoly_vertex S.perm c2.symm
    obtain ⟨d1, ks, d2, d3, d4⟩ := c59_polygonate c
    refine ⟨?_, d1, ?_⟩
    · intro e0
      rw [e0] at d4
      have : c = [] := by simpa using d4
      rw [this] at hpos
      simp at hpos
    · intro x hx
      have hx' : x ∈ c.map fun p => (⟨mathRound p.1, mathRound p.2⟩ : Pt) := by
        rw [d4, List.mem_flatten]
        obtain ⟨j, hj, rfl⟩ := List.mem_iff_getElem.mp hx
        have hj' : j < ks.length := d2 ▸ hj
        refine ⟨List.replicate ks[j] (polygonateOne c)[j], ?_, ?_⟩
        · rw [List.mem_iff_getElem]
          exact ⟨j, by simp [hj, hj'], by simp⟩
        · rw [List.mem_replicate]
          exact ⟨by have := d3 _ (List.getElem_mem hj'); omega, rfl⟩
      obtain ⟨p, hp, rfl⟩ := List.mem_map.mp hx'
      obtain ⟨b1, b2, b3, b4⟩ := clipVertex_bounds R k (hv p hp)
      obtain ⟨x1, x2⟩ := vertex_range R k.w2 b1 b2
      obtain ⟨y1, y2⟩ := vertex_range R k.h2 b3 b4
      exact ⟨mathRound_in x1 x2, mathRound_in y1 y2⟩
  · rw [List.length_map]
    refine (List.length_filter_le _ _).trans ?_
    rw [len, ← List.toFinset_card_of_nodup i1]
    refine Finset.card_le_card fun q hq => ?_
    rw [List.mem_toFinset] at hq ⊢
    have := Multiset.count_pos.mp ((i2 q).mp hq)
    exact this

/-- The common part of the next two theorems. -/
theorem evaluated_of (A : ∀ ops, VArith g F w h ops) (S : SorterOK vs) (hu : ∀ p ∈ ps, Unit01 p) (hl : ps.length ≤ 32767)
    {ops : List Op} {m : Nat} {v : V} (H : Hist w h ops ↑(ps.map fun p => createPoint F.r64 p w h) m) (e : vExec g F vs w h ops = some v)
    (hn : ∀ q ∈ ps.map fun p => createPoint F.r64 p w h, ¬ CellClash F w h ↑(ps.map fun p => createPoint F.r64 p w h) q)
    (same : ∀ p ∈ ps, roundPoint F.r64 w h p = createPoint F.r64 p w h)
    (hv : ∀ l ∈ iterPolygons v, ∀ c ∈ l, Agrees F c.1 ∧ Agrees F c.2) :
    ∃ P, polygonate g F vs w h ps = some P ∧ P.Perm ((iterPolygons v).map (roundPoly F.r64)) := by
  have R := (A []).rnd
  have k := (A []).tri.size
  obtain ⟨d, i, e'⟩ := polygonate_tri (vs := vs) A hu hl
  rw [List.map_congr_left same] at i
  have I := (A ops).inv H e
  have one := one_each I
  obtain ⟨ls, l1, l2⟩ := voronoi_perm_of I i fun q l hl =>
    stored_eq R k I S (hn q (by simpa using (one.2 q).mp ⟨l, hl⟩)) hl (Arith.all fun ops => (A ops).tri) (fun _ _ => trivial) i (fun _ => Iff.rfl)
  rw [l1] at e'
  refine ⟨_, e', (l2.map _).trans (List.Perm.of_eq (List.map_congr_left fun l hl' => ?_))⟩
  unfold polygonateOne roundPoly
  refine List.foldl_ext _ _ _ fun out c hc => ?_
  rw [(hv l hl' c hc).1, (hv l hl' c hc).2]

/-- **C79** (partial: under `VArith`, no indistinguishable corners, and no coordinate just below one half).  Let `v` be a diagram the polygon fitness
function has for `ps`, after any history of calls.  `Polygonate` on `ps` returns, and the polygons it returns are those the fitness function
evaluates, in some order. -/
theorem c79_evaluated_partial (A : ∀ ops, VArith g F w h ops) (T : Stores F) (S : SorterOK vs) (hu : ∀ p ∈ ps, Unit01 p) (hl : ps.length ≤ 32767)
    {ops : List Op} {m : Nat} {v : V} (H : Hist w h ops ↑(ps.map fun p => createPoint F.r64 p w h) m) (e : vExec g F vs w h ops = some v)
    (hn : ∀ q ∈ ps.map fun p => createPoint F.r64 p w h, ¬ CellClash F w h ↑(ps.map fun p => createPoint F.r64 p w h) q)
    (hp : ∀ p ∈ ps, F.r64 (p.x * w) ≠ 1 / 2 - 1 / 2 ^ 54 ∧ F.r64 (p.y * h) ≠ 1 / 2 - 1 / 2 ^ 54)
    (hv : ∀ l ∈ iterPolygons v, ∀ c ∈ l, c.1 ≠ 1 / 2 - 1 / 2 ^ 54 ∧ c.2 ≠ 1 / 2 - 1 / 2 ^ 54) :
    ∃ P, polygonate g F vs w h ps = some P ∧ P.Perm ((iterPolygons v).map (roundPoly F.r64)) := by
  have R := (A []).rnd
  have k := (A []).tri.size
  refine evaluated_of A S hu hl H e hn (fun p hp' => roundPoint_eq R T k (hu p hp') (hp p hp').1 (hp p hp').2) ?_
  intro l hl' c hc
  obtain ⟨⟨q, l'⟩, hm, rfl⟩ := List.mem_map.mp (List.mem_filter.mp hl').1
  obtain ⟨f, f1, f2, -⟩ := ((A ops).inv H e).rep
  obtain ⟨-, cs, c1, c2⟩ := f2 q l' ((f1.flatten q l').mp hm)
  obtain ⟨pts, p1, hvx⟩ := cellPoly_vertex S.perm c2
  exact vertex_agrees R T k c1 (S.perm _ _ _ p1) (hvx c hc) (hv l' hl' c hc).1 (hv l' hl' c hc).2

/-- **C79** without rounding: `Polygonate` returns, and the polygons are those the fitness function evaluates. -/
theorem c79_exact (k : SizeOk w h) (S : SorterOK vs) (hu : ∀ p ∈ ps, Unit01 p) (hl : ps.length ≤ 32767) {ops : List Op} {m : Nat} {v : V}
    (H : Hist w h ops ↑(ps.map fun p => createPoint (fun x => x) p w h) m) (e : vExec (gridGeo exactOps w h) exactOps vs w h ops = some v) :
    ∃ P, polygonate (gridGeo exactOps w h) exactOps vs w h ps = some P ∧ P.Perm ((iterPolygons v).map (roundPoly fun x => x)) := by
  have A : ∀ ops, VArith (gridGeo exactOps w h) exactOps w h ops := fun _ => varith_exact k
  refine evaluated_of A S hu hl H e (fun q _ => exact_no_clash exactOps_exact w h _ q) ?_ ?_
  · intro p hp
    have key : ∀ (n : Nat) (x : ℚ), 0 ≤ x → Agrees exactOps (x * n) := fun n x hx =>
      round_agree_id (fun _ => rfl) (by have : 0 ≤ x * n := by positivity
                                        linarith)
    have a := key w p.x (hu p hp).1.1
    have b := key h p.y (hu p hp).2.1
    unfold Agrees at a b
    unfold roundPoint createPoint
    simp only [exactOps] at a b ⊢
    rw [a, b]
  · intro l hl' c hc
    obtain ⟨⟨q, l'⟩, hm, rfl⟩ := List.mem_map.mp (List.mem_filter.mp hl').1
    obtain ⟨b1, b2, b3, b4⟩ := c70_inside_partial (A ops) H e S hm c hc
    obtain ⟨x1, -⟩ := vertex_range (A []).rnd k.w2 b1 b2
    obtain ⟨y1, -⟩ := vertex_range (A []).rnd k.h2 b3 b4
    exact ⟨round_agree_id (fun _ => rfl) (by linarith), round_agree_id (fun _ => rfl) (by linarith)⟩

/-! ### Examples -/

/-- Four points, on a 40 x 30 image; two of them have the same pixel. -/
def polyDemo : List NP := [⟨1 / 4, 11 / 32⟩, ⟨3 / 4, 11 / 32⟩, ⟨1 / 2, 27 / 32⟩, ⟨1 / 4, 21 / 64⟩]

theorem polyDemo_unit : ∀ p ∈ polyDemo, Unit01 p := by
  intro p hp
  simp only [polyDemo, List.mem_cons, List.not_mem_nil, or_false] at hp
  rcases hp with rfl | rfl | rfl | rfl <;> (unfold Unit01; norm_num)

theorem polyDemo_bag : ((polyDemo.map fun p => createPoint ieee.r64 p 40 30 : List Pt) : Multiset Pt) = demoBag := by decide +kernel

/-- What `Polygonate` returns, with IEEE arithmetic. -/
theorem polyDemo_run : polygonate (gridGeo ieee 40 30) ieee goSort 40 30 polyDemo =
    some [[⟨20, 14⟩, ⟨20, 0⟩, ⟨40, 0⟩, ⟨40, 28⟩], [⟨0, 28⟩, ⟨0, 0⟩, ⟨20, 0⟩, ⟨20, 14⟩], [⟨0, 28⟩, ⟨20, 14⟩, ⟨40, 28⟩]] := by decide +kernel

/-- The diagram of a history with a duplicate and a removal holds the points of `polyDemo`; its polygons are the exported ones. -/
example : ∃ v P, vExec (gridGeo ieee 40 30) ieee goSort 40 30 demoOps = some v ∧ polygonate (gridGeo ieee 40 30) ieee goSort 40 30 polyDemo = some P ∧
    P.Perm ((iterPolygons v).map (roundPoly (rne 53))) := by
  obtain ⟨v, e⟩ := demo_vexec
  have hv : (vExec (gridGeo ieee 40 30) ieee goSort 40 30 demoOps).all (fun v => (iterPolygons v).all fun l => l.all fun c =>
    decide (c.1 ≠ 1 / 2 - 1 / 2 ^ 54 ∧ c.2 ≠ 1 / 2 - 1 / 2 ^ 54)) = true := by decide +kernel
  rw [e] at hv
  simp only [Option.all_some, List.all_eq_true, decide_eq_true_eq] at hv
  have H := demo_hist
  rw [← polyDemo_bag] at H
  obtain ⟨P, h1, h2⟩ := c79_evaluated_partial (fun _ => varith_ieee demo_size (by decide)) stores_ieee goSort_ok polyDemo_unit (by decide) H e (by
    intro q hq
    rw [polyDemo_bag]
    exact demo_no_clash _ _ _ (List.prefix_refl _) demo_hist q (by rw [← polyDemo_bag]; exact hq)) (by decide +kernel) hv
  exact ⟨v, P, e, h1, h2⟩

example : (∀ l ∈ [[⟨20, 14⟩, ⟨20, 0⟩, ⟨40, 0⟩, ⟨40, 28⟩], [⟨0, 28⟩, ⟨0, 0⟩, ⟨20, 0⟩, ⟨20, 14⟩], [(⟨0, 28⟩ : Pt), ⟨20, 14⟩, ⟨40, 28⟩]],
    l ≠ [] ∧ (∀ (i : Nat) a, l[i]? = some a → l[i + 1]? ≠ some a) ∧ ∀ q ∈ l, (0 ≤ q.x ∧ q.x ≤ (40 : Nat)) ∧ 0 ≤ q.y ∧ q.y ≤ (30 : Nat)) :=
  (c79_inside_partial (fun _ => varith_ieee demo_size (by decide)) goSort_ok polyDemo_unit (by decide) polyDemo_run).1

example : ∃ v P, vExec (gridGeo exactOps 40 30) exactOps goSort 40 30 demoOps = some v ∧
    polygonate (gridGeo exactOps 40 30) exactOps goSort 40 30 polyDemo = some P ∧ P.Perm ((iterPolygons v).map (roundPoly fun x => x)) := by
  obtain ⟨v, e, -⟩ := c22_exact demo_size demo_hist goSort_ok
  have H := demo_hist
  have hb : ((polyDemo.map fun p => createPoint (fun x => x) p 40 30 : List Pt) : Multiset Pt) = demoBag := by decide +kernel
  rw [← hb] at H
  obtain ⟨P, h1, h2⟩ := c79_exact demo_size goSort_ok polyDemo_unit (by decide) H e
  exact ⟨v, P, e, h1, h2⟩

/-- Three points, the first with the exceptional coordinate on a 32 x 30 image. -/
def oddDemo : List NP := [⟨(1 / 2 - 1 / 2 ^ 54) / 32, 11 / 32⟩, ⟨3 / 4, 11 / 32⟩, ⟨1 / 2, 27 / 32⟩]

/-- **C79 is false** with an exceptional coordinate: of three points in the unit square, with float64 coordinates, the fitness function evaluates
polygons with the vertices (13, 0) and (13, 14), but `Polygonate` returns polygons with (12, 0) and (12, 13) instead. -/
theorem c79_evaluated_false : (∀ p ∈ oddDemo, Unit01 p ∧ Rep 53 p.x ∧ Rep 53 p.y) ∧
    (vExec (gridGeo ieee 32 30) ieee goSort 32 30 (oddDemo.map fun p => .ins (createPoint ieee.r64 p 32 30))).map
        (fun v => (iterPolygons v).map (roundPoly ieee.r64)) =
      some [[⟨0, 26⟩, ⟨0, 0⟩, ⟨13, 0⟩, ⟨13, 14⟩], [⟨0, 26⟩, ⟨13, 14⟩, ⟨32, 24⟩], [⟨13, 14⟩, ⟨13, 0⟩, ⟨32, 0⟩, ⟨32, 24⟩]] ∧
    polygonate (gridGeo ieee 32 30) ieee goSort 32 30 oddDemo =
      some [[⟨0, 26⟩, ⟨0, 0⟩, ⟨12, 0⟩, ⟨12, 13⟩], [⟨0, 26⟩, ⟨12, 13⟩, ⟨32, 24⟩], [⟨12, 13⟩, ⟨12, 0⟩, ⟨32, 0⟩, ⟨32, 24⟩]] := by
  refine ⟨?_, by decide +kernel, by decide +kernel⟩
  intro p hp
  simp only [oddDemo, List.mem_cons, List.not_mem_nil, or_false] at hp
  rcases hp with rfl | rfl | rfl
  · exact ⟨by unfold Unit01; norm_num, ⟨2 ^ 53 - 1, -59, by norm_num, by norm_num⟩, ⟨11, -5, by norm_num, by norm_num⟩⟩
  · exact ⟨by unfold Unit01; norm_num, ⟨3, -2, by norm_num, by norm_num⟩, ⟨11, -5, by norm_num, by norm_num⟩⟩
  · exact ⟨by unfold Unit01; norm_num, ⟨1, -1, by norm_num, by norm_num⟩, ⟨27, -5, by norm_num, by norm_num⟩⟩

end Verif.Props

import Verif.Vor.Cell
import Verif.Vor.Around
import Mathlib.Tactic.IntervalCases

/-!
# Clipping a convex polygon to the image

The intersection of two convex polygons is the hull of the vertices of each that are in the other and of the crossings of their edges.  Hence
clipping without rounding gives the part of the polygon in the image, if no vertex is close to the border and no edge of the image is in the polygon.
-/

namespace Verif.Vor

open Verif.Incr hiding Entry
open Verif.Float Verif.Spec
open Verif.Tri (P2)

/-- The direction of an edge across a direction. -/
def turnD (e : FP × FP) (d : FP) : ℚ := (e.2.1 - e.1.1) * d.2 - (e.2.2 - e.1.2) * d.1

theorem area_move (e : FP × FP) (r d : FP) (t : ℚ) : area e.1 e.2 (r.1 + t * d.1, r.2 + t * d.2) = area e.1 e.2 r + t * turnD e d := by
  unfold area turnD; ring

/-- Walk from a location in a direction until the first edge is met. -/
theorem walk_edges {L : List (FP × FP)} {r d : FP} (hr : ∀ e ∈ L, 0 ≤ area e.1 e.2 r) (hd : ∃ e ∈ L, turnD e d < 0) :
    ∃ t, 0 ≤ t ∧ (∀ e ∈ L, 0 ≤ area e.1 e.2 (r.1 + t * d.1, r.2 + t * d.2)) ∧
      ∃ e ∈ L, turnD e d < 0 ∧ area e.1 e.2 (r.1 + t * d.1, r.2 + t * d.2) = 0 := by
  classical
  obtain ⟨e0, he0, hs0⟩ := hd
  obtain ⟨e, he, hmin⟩ := Finset.exists_min_image (L.toFinset.filter fun e => turnD e d < 0) (fun e => area e.1 e.2 r / -turnD e d)
    ⟨e0, by simp [he0, hs0]⟩
  simp only [Finset.mem_filter, List.mem_toFinset] at he hmin
  have hp : 0 < -turnD e d := by linarith [he.2]
  have ht : 0 ≤ area e.1 e.2 r / -turnD e d := div_nonneg (hr e he.1) hp.le
  refine ⟨_, ht, fun e' he' => ?_, e, he.1, he.2, ?_⟩
  · rw [area_move]
    by_cases hs : turnD e' d < 0
    · have := hmin e' ⟨he', hs⟩
      rw [le_div_iff₀ (by linarith)] at this
      linarith
    · have := mul_nonneg ht (not_lt.mp hs)
      have := hr e' he'
      linarith
  · rw [area_move]
    have := div_mul_cancel₀ (area e.1 e.2 r) hp.ne'
    linarith

/-- A location of a convex polygon on the line of an edge is on the edge. -/
theorem _root_.Verif.Spec.ConvexPoly.on_edge {l : List FP} (C : ConvexPoly l) {e : FP × FP} (he : e ∈ pairs l) {r : FP}
    (hr : ∀ e ∈ pairs l, 0 ≤ area e.1 e.2 r) (h0 : area e.1 e.2 r = 0) : OnSeg e.1 e.2 r := by
  obtain ⟨i, hi, rfl⟩ := index_pairs he
  have h3 := C.1
  have hn : 0 < l.length := by omega
  set n := l.length with hn'
  have m1 : (i + 1) % n < n := Nat.mod_lt _ hn
  have m2 : ((i + 1) % n + 1) % n < n := Nat.mod_lt _ hn
  have m0 : (i + (n - 1)) % n < n := Nat.mod_lt _ hn
  have s1 : (i + 1) % n = if i + 1 = n then 0 else i + 1 := by
    split_ifs with h
    · rw [h, Nat.mod_self]
    · exact Nat.mod_eq_of_lt (by omega)
  have s2 : ((i + 1) % n + 1) % n = if i + 2 = n then 0 else if i + 1 = n then 1 else i + 2 := by
    rw [s1]
    split_ifs with h h'
    · omega
    · exact Nat.mod_eq_of_lt (by omega)
    · rw [show i + 1 + 1 = n by omega, Nat.mod_self]
    · exact Nat.mod_eq_of_lt (by omega)
  have s0 : (i + (n - 1)) % n = if i = 0 then n - 1 else i - 1 := by
    split_ifs with h
    · rw [h, zero_add]; exact Nat.mod_eq_of_lt (by omega)
    · rw [show i + (n - 1) = i - 1 + n by omega, Nat.add_mod_right]; exact Nat.mod_eq_of_lt (by omega)
  have s0' : ((i + (n - 1)) % n + 1) % n = i := by
    rw [Nat.mod_add_mod, show i + (n - 1) + 1 = i + n by omega, Nat.add_mod_right, Nat.mod_eq_of_lt hi]
  set a := l[i] with ha
  set b := l[(i + 1) % n] with hb
  -- the edge after
  have A := hr _ (pairs_index l ((i + 1) % n) m1)
  have A' := C.2 ((i + 1) % n) i m1 hi (by rw [s1]; split_ifs <;> omega) (by rw [← hn', s2]; split_ifs <;> omega)
  -- the edge before
  have B := hr _ (pairs_index l ((i + (n - 1)) % n) m0)
  have B' := C.2 ((i + (n - 1)) % n) ((i + 1) % n) m0 m1 (by rw [s0, s1]; split_ifs <;> omega) (by rw [← hn', s0', s1]; split_ifs <;> omega)
  simp only [← hn', s0'] at A A' B B'
  rw [← ha, ← hb] at A' B'
  rw [← ha] at B
  rw [← hb] at A
  generalize l[((i + 1) % n + 1) % n] = c at A A'
  generalize l[(i + (n - 1)) % n] = z at B B'
  simp only at h0
  -- the parameter
  have hab : (b.1 - a.1) ^ 2 + (b.2 - a.2) ^ 2 ≠ 0 := by
    intro h
    have e1 : b.1 - a.1 = 0 := pow_eq_zero_iff two_ne_zero |>.mp (le_antisymm (by linarith [sq_nonneg (b.2 - a.2)]) (sq_nonneg _))
    have e2 : b.2 - a.2 = 0 := pow_eq_zero_iff two_ne_zero |>.mp (le_antisymm (by linarith [sq_nonneg (b.1 - a.1)]) (sq_nonneg _))
    have : area b c a = 0 := by
      unfold area
      rw [show a.1 = b.1 by linarith, show a.2 = b.2 by linarith]; ring
    linarith
  obtain ⟨t, e1, e2⟩ : ∃ t : ℚ, r.1 = a.1 + t * (b.1 - a.1) ∧ r.2 = a.2 + t * (b.2 - a.2) := by
    refine ⟨((r.1 - a.1) * (b.1 - a.1) + (r.2 - a.2) * (b.2 - a.2)) / ((b.1 - a.1) ^ 2 + (b.2 - a.2) ^ 2), ?_, ?_⟩
    · unfold area at h0
      field_simp
      linear_combination (b.2 - a.2) * (-h0)
    · unfold area at h0
      field_simp
      linear_combination (b.1 - a.1) * h0
  have eA : area b c r = (1 - t) * area b c a := by unfold area; rw [e1, e2]; ring
  have eB : area z a r = t * area z a b := by unfold area; rw [e1, e2]; ring
  rw [eA] at A
  rw [eB] at B
  refine ⟨t, ?_, ?_, Prod.ext e1 e2⟩
  · by_contra hlt
    exact absurd (mul_neg_of_neg_of_pos (not_le.mp hlt) B') (not_lt.mpr B)
  · by_contra hlt
    exact absurd (mul_neg_of_neg_of_pos (by linarith [not_le.mp hlt]) A') (not_lt.mpr A)

/-- Where two edges of a convex polygon that are not parallel meet in the polygon, there is a vertex. -/
theorem _root_.Verif.Spec.ConvexPoly.two_edges {l : List FP} (C : ConvexPoly l) {e e' : FP × FP} (he : e ∈ pairs l) (he' : e' ∈ pairs l) {r : FP}
    (hr : ∀ e ∈ pairs l, 0 ≤ area e.1 e.2 r) (h0 : area e.1 e.2 r = 0) (h1 : area e'.1 e'.2 r = 0)
    (hs : turnD e' (e.2.1 - e.1.1, e.2.2 - e.1.2) ≠ 0) : r ∈ l := by
  obtain ⟨t, t0, t1, rfl⟩ := C.on_edge he hr h0
  have m := mem_of_pairs he
  have n1 := C.nonneg e' he' e.1 m.1
  have n2 := C.nonneg e' he' e.2 m.2
  have c1 : area e'.1 e'.2 (e.1.1 + t * (e.2.1 - e.1.1), e.1.2 + t * (e.2.2 - e.1.2)) = (1 - t) * area e'.1 e'.2 e.1 + t * area e'.1 e'.2 e.2 := by
    unfold area; ring
  rw [c1] at h1
  have p1 := mul_nonneg (by linarith : 0 ≤ 1 - t) n1
  have p2 := mul_nonneg t0 n2
  have z1 : (1 - t) * area e'.1 e'.2 e.1 = 0 := by linarith
  have z2 : t * area e'.1 e'.2 e.2 = 0 := by linarith
  rcases mul_eq_zero.mp z1 with h | h
  · rw [show t = 1 by linarith]
    simpa using m.2
  · rcases mul_eq_zero.mp z2 with h' | h'
    · rw [h']
      simpa using m.1
    · exfalso
      apply hs
      have : turnD e' (e.2.1 - e.1.1, e.2.2 - e.1.2) = area e'.1 e'.2 e.2 - area e'.1 e'.2 e.1 := by unfold turnD area; ring
      rw [this, h, h']; ring

/-- Locations between two locations of the hull. -/
theorem hull_between {S : Set FP} {r d : FP} {t t' : ℚ} (ht : 0 ≤ t) (ht' : 0 ≤ t') (h1 : (r.1 + t * d.1, r.2 + t * d.2) ∈ convexHull ℚ S)
    (h2 : (r.1 + t' * (-d.1), r.2 + t' * (-d.2)) ∈ convexHull ℚ S) : r ∈ convexHull ℚ S := by
  rcases (add_nonneg ht ht').lt_or_eq with hp | h0
  · have := convex_convexHull ℚ S h1 h2 (a := t' / (t + t')) (b := t / (t + t')) (div_nonneg ht' hp.le) (div_nonneg ht hp.le)
      (by rw [← add_div, add_comm t' t, div_self hp.ne'])
    convert this using 1
    refine Prod.ext ?_ ?_
    · simp only [Prod.fst_add, Prod.smul_fst, smul_eq_mul]
      field_simp
      ring
    · simp only [Prod.snd_add, Prod.smul_snd, smul_eq_mul]
      field_simp
      ring
  · have : t = 0 := by linarith
    rw [this] at h1
    simpa using h1

/-- The intersection of two convex polygons, one of which bounds every direction, is in the hull of any set with the vertices of each in the other and the crossings of
their edges. -/
theorem inter_hull {l m : List FP} (C : ConvexPoly l) (M : ConvexPoly m) (hb : ∀ d : FP, d ≠ (0, 0) → ∃ e ∈ pairs m, turnD e d < 0) {S : Set FP}
    (hS1 : ∀ a ∈ l, (∀ e ∈ pairs m, 0 ≤ area e.1 e.2 a) → a ∈ S) (hS2 : ∀ a ∈ m, (∀ e ∈ pairs l, 0 ≤ area e.1 e.2 a) → a ∈ S)
    (hS3 : ∀ e ∈ pairs l, ∀ e' ∈ pairs m, ∀ r, (∀ e ∈ pairs l, 0 ≤ area e.1 e.2 r) → (∀ e ∈ pairs m, 0 ≤ area e.1 e.2 r) →
      turnD e' (e.2.1 - e.1.1, e.2.2 - e.1.2) ≠ 0 → OnSeg e.1 e.2 r → OnSeg e'.1 e'.2 r → r ∈ S)
    {r : FP} (h1 : ∀ e ∈ pairs l, 0 ≤ area e.1 e.2 r) (h2 : ∀ e ∈ pairs m, 0 ≤ area e.1 e.2 r) : r ∈ convexHull ℚ S := by
  have both : ∀ r : FP, (∀ e ∈ pairs l ++ pairs m, 0 ≤ area e.1 e.2 r) ↔ (∀ e ∈ pairs l, 0 ≤ area e.1 e.2 r) ∧ ∀ e ∈ pairs m, 0 ≤ area e.1 e.2 r :=
    fun r => List.forall_mem_append
  have hd : ∀ d : FP, d ≠ (0, 0) → ∃ e ∈ pairs l ++ pairs m, turnD e d < 0 := by
    intro d h
    obtain ⟨e, he, hs⟩ := hb d h
    exact ⟨e, List.mem_append_right _ he, hs⟩
  have neg0 : ∀ d : FP, d ≠ (0, 0) → ((-d.1, -d.2) : FP) ≠ (0, 0) := by
    intro d h h'
    refine h (Prod.ext ?_ ?_)
    · have := congrArg Prod.fst h'; simpa using this
    · have := congrArg Prod.snd h'; simpa using this
  -- two edges
  have step3 : ∀ r : FP, (∀ e ∈ pairs l ++ pairs m, 0 ≤ area e.1 e.2 r) → ∀ e ∈ pairs l ++ pairs m, ∀ e' ∈ pairs l ++ pairs m,
      area e.1 e.2 r = 0 → area e'.1 e'.2 r = 0 → turnD e' (e.2.1 - e.1.1, e.2.2 - e.1.2) ≠ 0 → r ∈ S := by
    intro r hr e he e' he' z z' hs
    obtain ⟨r1, r2⟩ := (both r).mp hr
    rcases List.mem_append.mp he with he | he <;> rcases List.mem_append.mp he' with he' | he'
    · exact hS1 r (C.two_edges he he' r1 z z' hs) r2
    · exact hS3 e he e' he' r r1 r2 hs (C.on_edge he r1 z) (M.on_edge he' r2 z')
    · refine hS3 e' he' e he r r1 r2 ?_ (C.on_edge he' r1 z') (M.on_edge he r2 z)
      intro h0
      apply hs
      unfold turnD at h0 ⊢
      simp only at h0 ⊢
      linarith
    · exact hS2 r (M.two_edges he he' r2 z z' hs) r1
  -- one edge
  have step2 : ∀ r : FP, (∀ e ∈ pairs l ++ pairs m, 0 ≤ area e.1 e.2 r) → ∀ e ∈ pairs l ++ pairs m, (e.2.1 - e.1.1, e.2.2 - e.1.2) ≠ ((0, 0) : FP) →
      area e.1 e.2 r = 0 → r ∈ convexHull ℚ S := by
    intro r hr e he hne z
    set d : FP := (e.2.1 - e.1.1, e.2.2 - e.1.2) with hdd
    have se : turnD e d = 0 := by unfold turnD; rw [hdd]; ring
    have se' : turnD e (-d.1, -d.2) = 0 := by unfold turnD; rw [hdd]; ring
    obtain ⟨t, t0, f1, e1, he1, s1, z1⟩ := walk_edges hr (hd d hne)
    obtain ⟨t', t0', f2, e2, he2, s2, z2⟩ := walk_edges hr (hd (-d.1, -d.2) (neg0 d hne))
    refine hull_between (d := d) t0 t0' (subset_convexHull ℚ S (step3 _ f1 e he e1 he1 ?_ z1 s1.ne)) (subset_convexHull ℚ S (step3 _ f2 e he e2 he2 ?_ z2 ?_))
    · rw [area_move, se, z]; ring
    · have := area_move e r (-d.1, -d.2) t'
      rw [se', z] at this
      simpa using this
    · intro h0
      have : turnD e2 (-d.1, -d.2) = - turnD e2 d := by unfold turnD; ring
      rw [this, h0] at s2
      simp at s2
  have hr := (both r).mpr ⟨h1, h2⟩
  have nz : ∀ {e : FP × FP} {d : FP}, turnD e d < 0 → (e.2.1 - e.1.1, e.2.2 - e.1.2) ≠ ((0, 0) : FP) := by
    intro e d hs h
    have a1 : e.2.1 - e.1.1 = 0 := congrArg Prod.fst h
    have a2 : e.2.2 - e.1.2 = 0 := congrArg Prod.snd h
    unfold turnD at hs
    rw [a1, a2] at hs
    simp at hs
  have one : ((1, 0) : FP) ≠ (0, 0) := by simp
  obtain ⟨t, t0, f1, e1, he1, s1, z1⟩ := walk_edges hr (hd (1, 0) one)
  obtain ⟨t', t0', f2, e2, he2, s2, z2⟩ := walk_edges hr (hd (-(1, 0).1, -(1, 0).2) (neg0 (1, 0) one))
  exact hull_between (d := (1, 0)) t0 t0' (step2 _ f1 e1 he1 (nz s1) z1) (step2 _ f2 e2 he2 (nz s2) z2)

/-! ### The image -/

/-- The corners of the image. -/
def frame (w h : Nat) : List FP := [(0, 0), ((w : ℚ), 0), ((w : ℚ), (h : ℚ)), (0, (h : ℚ))]

theorem pairs_frame (w h : Nat) : pairs (frame w h) = edges w h := rfl

variable {F : FloatOps} {w h : Nat}

theorem edge_cases {e : FP × FP} (he : e ∈ edges w h) :
    e = ((0, 0), ((w : ℚ), 0)) ∨ e = (((w : ℚ), 0), ((w : ℚ), (h : ℚ))) ∨ e = (((w : ℚ), (h : ℚ)), (0, (h : ℚ))) ∨ e = ((0, (h : ℚ)), (0, 0)) := by
  simpa [edges] using he

theorem frame_convex (hw : 0 < w) (hh : 0 < h) : ConvexPoly (frame w h) := by
  have w0 : (0 : ℚ) < w := by exact_mod_cast hw
  have h0 : (0 : ℚ) < h := by exact_mod_cast hh
  have := mul_pos w0 h0
  refine ⟨by simp [frame], fun i j hi hj h1 h2 => ?_⟩
  simp only [frame, List.length_cons, List.length_nil] at hi hj h2
  interval_cases i <;> interval_cases j <;> simp [frame, area] at h1 h2 ⊢ <;> linarith

theorem frame_bounds (hw : 0 < w) (hh : 0 < h) (d : FP) (hd : d ≠ (0, 0)) : ∃ e ∈ edges w h, turnD e d < 0 := by
  have w0 : (0 : ℚ) < w := by exact_mod_cast hw
  have h0 : (0 : ℚ) < h := by exact_mod_cast hh
  rcases lt_trichotomy d.1 0 with h1 | h1 | h1
  · refine ⟨((0, (h : ℚ)), (0, 0)), by simp [edges], ?_⟩
    have := mul_neg_of_pos_of_neg h0 h1
    simp only [turnD]; linarith
  · rcases lt_trichotomy d.2 0 with h2 | h2 | h2
    · refine ⟨((0, 0), ((w : ℚ), 0)), by simp [edges], ?_⟩
      have := mul_neg_of_pos_of_neg w0 h2
      simp only [turnD]; linarith
    · exact absurd (Prod.ext h1 h2) hd
    · refine ⟨(((w : ℚ), (h : ℚ)), (0, (h : ℚ))), by simp [edges], ?_⟩
      have := mul_pos w0 h2
      simp only [turnD]; linarith
  · refine ⟨(((w : ℚ), 0), ((w : ℚ), (h : ℚ))), by simp [edges], ?_⟩
    have := mul_pos h0 h1
    simp only [turnD]; linarith

theorem frame_rect (hw : 0 < w) (hh : 0 < h) (r : FP) : (∀ e ∈ edges w h, 0 ≤ area e.1 e.2 r) ↔ 0 ≤ r.1 ∧ r.1 ≤ w ∧ 0 ≤ r.2 ∧ r.2 ≤ h := by
  have w0 : (0 : ℚ) < w := by exact_mod_cast hw
  have h0 : (0 : ℚ) < h := by exact_mod_cast hh
  simp only [edges, List.forall_mem_cons, List.not_mem_nil, false_imp_iff, implies_true, and_true, area]
  constructor
  · rintro ⟨a, b, c, d⟩
    refine ⟨le_of_mul_le_mul_left (a := (h : ℚ)) ?_ h0, le_of_mul_le_mul_left (a := (h : ℚ)) ?_ h0, le_of_mul_le_mul_left (a := (w : ℚ)) ?_ w0,
      le_of_mul_le_mul_left (a := (w : ℚ)) ?_ w0⟩ <;> linarith
  · rintro ⟨a, b, c, d⟩
    have := mul_le_mul_of_nonneg_left a h0.le
    have := mul_le_mul_of_nonneg_left b h0.le
    have := mul_le_mul_of_nonneg_left c w0.le
    have := mul_le_mul_of_nonneg_left d w0.le
    refine ⟨?_, ?_, ?_, ?_⟩ <;> linarith

/-! ### What is clipped -/

/-- More points and more hits. -/
def More (a b : List FP × List Bool) : Prop :=
  (∀ c ∈ a.1, c ∈ b.1) ∧ b.2.length = a.2.length ∧ ∀ j, a.2.getD j false = true → b.2.getD j false = true

theorem More.refl (a : List FP × List Bool) : More a a := ⟨fun _ h => h, rfl, fun _ h => h⟩

theorem More.trans {a b c : List FP × List Bool} (h1 : More a b) (h2 : More b c) : More a c :=
  ⟨fun x hx => h2.1 x (h1.1 x hx), h2.2.1.trans h1.2.1, fun j hj => h2.2.2 j (h1.2.2 j hj)⟩

theorem more_foldl {α : Type} (f : List FP × List Bool → α → List FP × List Bool) (hf : ∀ b a, More b (f b a)) :
    ∀ (l : List α) (b : List FP × List Bool), More b (l.foldl f b)
  | [], b => More.refl b
  | a :: l, b => (hf b a).trans (more_foldl f hf l (f b a))

/-- Something that a step at `a` achieves is achieved by the fold. -/
theorem more_reach {α : Type} (f : List FP × List Bool → α → List FP × List Bool) (hf : ∀ b a, More b (f b a)) {P : List FP × List Bool → Prop}
    (hP : ∀ b c, More b c → P b → P c) {a : α} :
    ∀ (l : List α) (b : List FP × List Bool), a ∈ l → (∀ c, c.2.length = b.2.length → P (f c a)) → P (l.foldl f b)
  | x :: l, b, ha, h => by
    rw [List.foldl_cons]
    rcases List.mem_cons.mp ha with rfl | ha
    · exact hP _ _ (more_foldl f hf l _) (h b rfl)
    · exact more_reach f hf hP l _ ha fun c hc => h c (by rw [hc, (hf b x).2.1])

theorem edgeStep_more (a b : FP) (st : List FP × List Bool) (e : (FP × FP) × Nat) : More st (edgeStep F a b st e) := by
  unfold edgeStep
  cases segmentsIntersect F e.1.1 e.1.2 a b with
  | none => exact More.refl st
  | some q =>
    simp only
    split_ifs
    · refine ⟨fun c hc => List.mem_append_left _ hc, by simp, fun j hj => ?_⟩
      by_cases h : e.2 = j
      · subst h
        have : e.2 < st.2.length := by
          by_contra hl
          rw [List.getD_eq_getElem?_getD, List.getElem?_eq_none (not_lt.mp hl)] at hj
          simp at hj
        simp [List.getD_eq_getElem?_getD, this]
      · simp only [List.getD_eq_getElem?_getD, List.getElem?_set_ne h] at hj ⊢
        exact hj
    · refine ⟨fun c hc => hc, by simp, fun j hj => ?_⟩
      by_cases h : e.2 = j
      · subst h
        have : e.2 < st.2.length := by
          by_contra hl
          rw [List.getD_eq_getElem?_getD, List.getElem?_eq_none (not_lt.mp hl)] at hj
          simp at hj
        simp [List.getD_eq_getElem?_getD, this]
      · simp only [List.getD_eq_getElem?_getD, List.getElem?_set_ne h] at hj ⊢
        exact hj
    · exact More.refl st

theorem sideStep_more (st : List FP × List Bool) (ab : FP × FP) : More st (sideStep F w h st ab) := by
  unfold sideStep
  refine More.trans ?_ (more_foldl _ (edgeStep_more ab.1 ab.2) _ _)
  refine ⟨fun c hc => ?_, rfl, fun _ h => h⟩
  simp only
  split_ifs
  · exact hc
  · exact List.mem_append_left _ hc

/-- A corner inside is kept. -/
theorem clipSides_corner {pts : List FP} {a : FP} (ha : a ∈ pts) (ho : outside F w h a = false) : a ∈ (clipSides F w h pts).1 := by
  obtain ⟨i, hi, rfl⟩ := List.mem_iff_getElem.mp ha
  unfold clipSides
  refine more_reach (P := fun st => pts[i] ∈ st.1) _ (sideStep_more) (fun b c hbc hb => hbc.1 _ hb) _ _ (pairs_index pts i hi) fun c _ => ?_
  unfold sideStep
  refine (more_foldl _ (edgeStep_more _ _) _ _).1 _ ?_
  simp [ho]

/-- A crossing that is not close to the ends of the side is kept, unless it is a corner of the image, and marks the edge. -/
theorem clipSides_cut {pts : List FP} {ab : FP × FP} (hab : ab ∈ pairs pts) {e : (FP × FP) × Nat} (he : e ∈ (edges w h).zipIdx) {q : FP}
    (hq : segmentsIntersect F e.1.1 e.1.2 ab.1 ab.2 = some q) (n1 : ¬ (epsilonEquals F q.1 ab.1.1 = true ∧ epsilonEquals F q.2 ab.1.2 = true))
    (n2 : ¬ (epsilonEquals F q.1 ab.2.1 = true ∧ epsilonEquals F q.2 ab.2.2 = true)) :
    (q ≠ e.1.1 → q ≠ e.1.2 → q ∈ (clipSides F w h pts).1) ∧ (clipSides F w h pts).2.getD e.2 false = true := by
  have he2 : e.2 < 4 := by
    have := List.snd_lt_of_mem_zipIdx he
    simpa [edges] using this
  unfold clipSides
  refine more_reach (P := fun st => (q ≠ e.1.1 → q ≠ e.1.2 → q ∈ st.1) ∧ st.2.getD e.2 false = true) _ sideStep_more
    (fun b c hbc hb => ⟨fun h1 h2 => hbc.1 _ (hb.1 h1 h2), hbc.2.2 _ hb.2⟩) _ _ hab fun c hc => ?_
  unfold sideStep
  refine more_reach (P := fun st => (q ≠ e.1.1 → q ≠ e.1.2 → q ∈ st.1) ∧ st.2.getD e.2 false = true) _ (edgeStep_more _ _)
    (fun b c hbc hb => ⟨fun h1 h2 => hbc.1 _ (hb.1 h1 h2), hbc.2.2 _ hb.2⟩) _ _ he fun c' hc' => ?_
  unfold edgeStep
  rw [hq]
  have g : (!(epsilonEquals F q.1 ab.1.1 && epsilonEquals F q.2 ab.1.2) && !(epsilonEquals F q.1 ab.2.1 && epsilonEquals F q.2 ab.2.2)) = true := by
    rw [Bool.and_eq_true, Bool.not_eq_true', Bool.not_eq_true', ← Bool.not_eq_true, ← Bool.not_eq_true, Bool.and_eq_true, Bool.and_eq_true]
    exact ⟨n1, n2⟩
  simp only [g, if_true]
  refine ⟨fun h1 h2 => ?_, ?_⟩
  · rw [if_pos ⟨h1, h2⟩]; simp
  · have : e.2 < c'.2.length := by rw [hc']; simp only; rw [hc]; exact he2
    simp [List.getD_eq_getElem?_getD, this]

theorem cornerFold_mem (pts : List FP) (hit : List Bool) : ∀ (es : List ((FP × FP) × Nat)) (poly : List FP) (c : FP),
    c ∈ es.foldl (cornerStep F pts hit) poly ↔ c ∈ poly ∨ ∃ e ∈ es, hit.getD e.2 false = true ∧ hit.getD ((e.2 + 1) % 4) false = true ∧
      polygonPointIntersect F pts e.1.2 = true ∧ c = e.1.2
  | [], poly, c => by simp
  | e :: es, poly, c => by
    rw [List.foldl_cons, cornerFold_mem pts hit es, List.exists_mem_cons_iff]
    unfold cornerStep
    split_ifs with h
    · simp only [Bool.and_eq_true] at h
      simp only [List.mem_append, List.mem_singleton]
      constructor
      · rintro ((h1 | h1) | h1)
        · exact Or.inl h1
        · exact Or.inr (Or.inl ⟨h.1.1, h.1.2, h.2, h1⟩)
        · exact Or.inr (Or.inr h1)
      · rintro (h1 | ⟨_, _, _, h1⟩ | h1)
        · exact Or.inl (Or.inl h1)
        · exact Or.inl (Or.inr h1)
        · exact Or.inr h1
    · simp only [Bool.and_eq_true, not_and] at h
      constructor
      · rintro (h1 | h1)
        · exact Or.inl h1
        · exact Or.inr (Or.inr h1)
      · rintro (h1 | ⟨a, b, c, _⟩ | h1)
        · exact Or.inl h1
        · exact absurd c (h ⟨a, b⟩)
        · exact Or.inr h1

/-- A location is away from the border of the image: it is out of the image, or inside at a distance of at least `eps`. -/
def AwayFrom (ε : ℚ) (w h : Nat) (c : FP) : Prop :=
  (c.1 < -ε ∨ c.2 < -ε ∨ c.1 > w + ε ∨ c.2 > h + ε) ∨ (ε ≤ c.1 ∧ c.1 ≤ w - ε ∧ ε ≤ c.2 ∧ c.2 ≤ h - ε)

/-- Clipping a convex polygon in exact arithmetic gives its part in the image, if its vertices are away from the border and it contains no edge of the image. -/
theorem clip_hull (E : Exact F) (hw : 0 < w) (hh : 0 < h) {pts : List FP} (C : ConvexPoly pts) (hN : ∀ c ∈ pts, AwayFrom (eps F) w h c)
    (hE : ∀ e ∈ edges w h, ¬ (e.1 ∈ convexHull ℚ {a | a ∈ pts} ∧ e.2 ∈ convexHull ℚ {a | a ∈ pts})) {r : FP}
    (h1 : r ∈ convexHull ℚ {a | a ∈ pts}) (h2 : 0 ≤ r.1 ∧ r.1 ≤ w ∧ 0 ≤ r.2 ∧ r.2 ≤ h) : r ∈ convexHull ℚ {a | a ∈ clipPoints F w h pts} := by
  have e0 : 0 < eps F := eps_pos (exact_rnd E)
  have sub : ∀ c ∈ (clipSides F w h pts).1, c ∈ clipPoints F w h pts := by
    intro c hc
    unfold clipPoints
    exact (cornerFold_mem pts _ _ _ c).mpr (Or.inl hc)
  -- a location of the border is not close to a vertex
  have far : ∀ c ∈ pts, ∀ e ∈ edges w h, ∀ q, OnSeg e.1 e.2 q → ¬ (epsilonEquals F q.1 c.1 = true ∧ epsilonEquals F q.2 c.2 = true) := by
    rintro c hc e he q ⟨t, t0, t1, rfl⟩ ⟨a1, a2⟩
    unfold epsilonEquals at a1 a2
    simp only [E.1, decide_eq_true_eq, abs_lt] at a1 a2
    have w0 : (0 : ℚ) < w := by exact_mod_cast hw
    have h0 : (0 : ℚ) < h := by exact_mod_cast hh
    have p1 := mul_nonneg t0 w0.le
    have p2 := mul_nonneg t0 h0.le
    have p3 := mul_le_mul_of_nonneg_right t1 w0.le
    have p4 := mul_le_mul_of_nonneg_right t1 h0.le
    have := hN c hc
    unfold AwayFrom at this
    rcases edge_cases he with rfl | rfl | rfl | rfl <;> simp only at a1 a2 <;>
      rcases this with (h | h | h | h) | ⟨b1, b2, b3, b4⟩ <;> linarith
  -- crossings
  have cut : ∀ e ∈ pairs pts, ∀ e' ∈ (edges w h).zipIdx, ∀ r, turnD e'.1 (e.2.1 - e.1.1, e.2.2 - e.1.2) ≠ 0 → OnSeg e.1 e.2 r → OnSeg e'.1.1 e'.1.2 r →
      (r ≠ e'.1.1 → r ≠ e'.1.2 → r ∈ (clipSides F w h pts).1) ∧ (clipSides F w h pts).2.getD e'.2 false = true := by
    intro e he e' he' r hs o1 o2
    have m := mem_of_pairs he
    have me := List.fst_mem_of_mem_zipIdx he'
    exact clipSides_cut he he' ((segments_iff E.1 (by unfold turnD at hs; simpa using hs) r).mpr ⟨o2, o1⟩)
      (far _ m.1 _ me _ o2) (far _ m.2 _ me _ o2)
  -- an edge of the image with one end in the polygon is marked
  have mark : ∀ e ∈ (edges w h).zipIdx, (e.1.1 ∈ convexHull ℚ {a | a ∈ pts} ∨ e.1.2 ∈ convexHull ℚ {a | a ∈ pts}) →
      (clipSides F w h pts).2.getD e.2 false = true := by
    intro e he hor
    have me := List.fst_mem_of_mem_zipIdx he
    have key : ∀ a b : FP, (∀ t, 0 ≤ t → t ≤ 1 → OnSeg e.1.1 e.1.2 (a.1 + t * (b.1 - a.1), a.2 + t * (b.2 - a.2))) →
        (∀ d : FP, turnD e.1 d = 0 ↔ (b.1 - a.1) * d.2 - (b.2 - a.2) * d.1 = 0) →
        a ∈ convexHull ℚ {a | a ∈ pts} → b ∉ convexHull ℚ {a | a ∈ pts} → (clipSides F w h pts).2.getD e.2 false = true := by
      intro a b hon hpar ha hb
      have ha := (C.hull a).mp ha
      have hbb : ∃ e' ∈ pairs pts, area e'.1 e'.2 b < 0 := by
        by_contra hc
        push Not at hc
        exact hb ((C.hull b).mpr hc)
      obtain ⟨e', he', hlt⟩ := hbb
      have eb : ∀ e' : FP × FP, area e'.1 e'.2 b = area e'.1 e'.2 a + turnD e' (b.1 - a.1, b.2 - a.2) := by
        intro e'; unfold area turnD; ring
      obtain ⟨t, t0, f1, e1, he1, s1, z1⟩ := walk_edges (d := (b.1 - a.1, b.2 - a.2)) ha ⟨e', he', by
        have := ha e' he'
        rw [eb] at hlt
        linarith⟩
      have t1 : t ≤ 1 := by
        by_contra hgt
        have f := f1 e' he'
        rw [area_move] at f
        have := ha e' he'
        rw [eb] at hlt
        have hn : turnD e' (b.1 - a.1, b.2 - a.2) < 0 := by linarith
        have := mul_lt_mul_of_neg_right (not_le.mp hgt) hn
        linarith
      refine (cut e1 he1 e he _ ?_ (C.on_edge he1 f1 z1) (hon t t0 t1)).2
      intro h0
      rw [hpar] at h0
      unfold turnD at s1
      simp only at s1 h0
      linarith
    rcases hor with hin | hin
    · refine key e.1.1 e.1.2 (fun t t0 t1 => ⟨t, t0, t1, rfl⟩) (fun d => ?_) hin fun hb => hE _ me ⟨hin, hb⟩
      unfold turnD; rfl
    · refine key e.1.2 e.1.1 (fun t t0 t1 => ⟨1 - t, by linarith, by linarith, Prod.ext (by simp only; ring) (by simp only; ring)⟩) (fun d => ?_) hin
        fun hb => hE _ me ⟨hb, hin⟩
      unfold turnD
      constructor <;> intro h0 <;> linarith
  -- corners of the image
  have corner : ∀ a ∈ frame w h, a ∈ convexHull ℚ {a | a ∈ pts} → a ∈ clipPoints F w h pts := by
    intro a ha hin
    have acc : polygonPointIntersect F pts a = true := by
      refine ppi_of a ?_
      rintro ⟨⟨e, he, hp⟩, -⟩
      rw [crossD_area E.1] at hp
      have := (C.hull a).mp hin e he
      linarith
    unfold clipPoints
    refine (cornerFold_mem pts _ _ _ a).mpr (Or.inr ?_)
    have z : (edges w h).zipIdx = [(((0, 0), ((w : ℚ), 0)), 0), ((((w : ℚ), 0), ((w : ℚ), (h : ℚ))), 1), ((((w : ℚ), (h : ℚ)), (0, (h : ℚ))), 2),
      (((0, (h : ℚ)), (0, 0)), 3)] := rfl
    rw [z] at mark ⊢
    simp only [frame, List.mem_cons, List.not_mem_nil, or_false] at ha
    rcases ha with rfl | rfl | rfl | rfl
    · exact ⟨(((0, (h : ℚ)), (0, 0)), 3), by simp, mark (((0, (h : ℚ)), (0, 0)), 3) (by simp) (Or.inr hin),
        (by simpa using mark (((0, 0), ((w : ℚ), 0)), 0) (by simp) (Or.inl hin)), acc, rfl⟩
    · exact ⟨(((0, 0), ((w : ℚ), 0)), 0), by simp, mark (((0, 0), ((w : ℚ), 0)), 0) (by simp) (Or.inr hin),
        mark ((((w : ℚ), 0), ((w : ℚ), (h : ℚ))), 1) (by simp) (Or.inl hin), acc, rfl⟩
    · exact ⟨((((w : ℚ), 0), ((w : ℚ), (h : ℚ))), 1), by simp, mark ((((w : ℚ), 0), ((w : ℚ), (h : ℚ))), 1) (by simp) (Or.inr hin),
        mark ((((w : ℚ), (h : ℚ)), (0, (h : ℚ))), 2) (by simp) (Or.inl hin), acc, rfl⟩
    · exact ⟨((((w : ℚ), (h : ℚ)), (0, (h : ℚ))), 2), by simp, mark ((((w : ℚ), (h : ℚ)), (0, (h : ℚ))), 2) (by simp) (Or.inr hin),
        mark (((0, (h : ℚ)), (0, 0)), 3) (by simp) (Or.inl hin), acc, rfl⟩
  refine inter_hull C (frame_convex hw hh) (frame_bounds hw hh) ?_ ?_ ?_ ((C.hull r).mp h1) ((frame_rect hw hh r).mpr h2)
  · intro a ha hin
    obtain ⟨b1, b2, b3, b4⟩ := (frame_rect hw hh a).mp hin
    refine sub a (clipSides_corner ha ?_)
    unfold outside
    simp only [E.1, decide_eq_false_iff_not, not_or, not_lt, gt_iff_lt]
    refine ⟨?_, ?_, ?_, ?_⟩ <;> linarith
  · exact fun a ha hin => corner a ha ((C.hull a).mpr hin)
  · intro e he e' he' r r1 r2 hs o1 o2
    rw [pairs_frame] at he'
    obtain ⟨j, hj⟩ : ∃ j, (e', j) ∈ (edges w h).zipIdx := by
      obtain ⟨i, hi, rfl⟩ := List.mem_iff_getElem.mp he'
      exact ⟨i, by rw [List.mem_zipIdx_iff_getElem?]; simp [hi]⟩
    by_cases c1 : r = e'.1
    · refine corner r ?_ ((C.hull r).mpr r1)
      rw [c1, ← pairs_frame] at *
      exact (mem_of_pairs he').1
    · by_cases c2 : r = e'.2
      · refine corner r ?_ ((C.hull r).mpr r1)
        rw [c2, ← pairs_frame] at *
        exact (mem_of_pairs he').2
      · exact sub r ((cut e he (e', j) hj r hs o1 o2).1 c1 c2)

/-- A kept point is a corner inside or a crossing that is not a corner of the image, and a marked edge is crossed. -/
theorem clipSides_only (pts : List FP) :
    (∀ c ∈ (clipSides F w h pts).1, (c ∈ pts ∧ outside F w h c = false) ∨
      ∃ ab ∈ pairs pts, ∃ e ∈ edges w h, segmentsIntersect F e.1 e.2 ab.1 ab.2 = some c ∧ c ≠ e.1 ∧ c ≠ e.2) ∧
    ∀ e ∈ (edges w h).zipIdx, (clipSides F w h pts).2.getD e.2 false = true → ∃ ab ∈ pairs pts, ∃ r, segmentsIntersect F e.1.1 e.1.2 ab.1 ab.2 = some r := by
  let P := fun st : List FP × List Bool => (∀ c ∈ st.1, (c ∈ pts ∧ outside F w h c = false) ∨
      ∃ ab ∈ pairs pts, ∃ e ∈ edges w h, segmentsIntersect F e.1 e.2 ab.1 ab.2 = some c ∧ c ≠ e.1 ∧ c ≠ e.2) ∧
    ∀ e ∈ (edges w h).zipIdx, st.2.getD e.2 false = true → ∃ ab ∈ pairs pts, ∃ r, segmentsIntersect F e.1.1 e.1.2 ab.1 ab.2 = some r
  show P (clipSides F w h pts)
  unfold clipSides
  refine foldl_inv _ _ _ ⟨by simp, ?_⟩ ?_
  · intro e he h
    have : e.2 < 4 := by
      have := List.snd_lt_of_mem_zipIdx he
      simpa [edges] using this
    have hf : ∀ j < 4, [false, false, false, false].getD j false = false := by decide
    rw [hf _ this] at h
    cases h
  · intro st ab hab hst
    unfold sideStep
    refine foldl_inv _ _ _ ⟨?_, hst.2⟩ ?_
    · intro c hc
      simp only at hc
      split_ifs at hc with ho
      · exact hst.1 c hc
      · rcases List.mem_append.mp hc with hc | hc
        · exact hst.1 c hc
        · rw [List.mem_singleton] at hc
          subst hc
          exact Or.inl ⟨(mem_of_pairs hab).1, by simpa using ho⟩
    · intro st e he hst
      unfold edgeStep
      cases hq : segmentsIntersect F e.1.1 e.1.2 ab.1 ab.2 with
      | none => exact hst
      | some q =>
        have two : ∀ e' ∈ (edges w h).zipIdx, (st.2.set e.2 true).getD e'.2 false = true →
            ∃ ab ∈ pairs pts, ∃ r, segmentsIntersect F e'.1.1 e'.1.2 ab.1 ab.2 = some r := by
          intro e' he' h
          by_cases hj : e.2 = e'.2
          · have a1 := List.mem_zipIdx_iff_getElem?.mp he
            have a2 := List.mem_zipIdx_iff_getElem?.mp he'
            rw [hj, a2] at a1
            have : e'.1 = e.1 := by simpa using a1
            rw [this]
            exact ⟨ab, hab, q, hq⟩
          · refine hst.2 e' he' ?_
            simpa only [List.getD_eq_getElem?_getD, List.getElem?_set_ne hj] using h
        simp only
        split_ifs with g1 g2
        · refine ⟨fun c hc => ?_, two⟩
          rcases List.mem_append.mp hc with hc | hc
          · exact hst.1 c hc
          · rw [List.mem_singleton] at hc
            subst hc
            exact Or.inr ⟨ab, hab, e.1, List.fst_mem_of_mem_zipIdx he, hq, g2.1, g2.2⟩
        · exact ⟨hst.1, two⟩
        · exact hst

/-- A corner of the image on an edge of the image is an end of the edge. -/
theorem frame_end (hw : 0 < w) (hh : 0 < h) {a : FP} (ha : a ∈ frame w h) {e : FP × FP} (he : e ∈ edges w h) (ho : OnSeg e.1 e.2 a) : a = e.1 ∨ a = e.2 := by
  have w0 : (w : ℚ) ≠ 0 := by exact_mod_cast hw.ne'
  have h0 : (h : ℚ) ≠ 0 := by exact_mod_cast hh.ne'
  obtain ⟨t, t0, t1, rfl⟩ := ho
  simp only [frame, List.mem_cons, List.not_mem_nil, or_false, Prod.mk.injEq] at ha
  rcases edge_cases he with rfl | rfl | rfl | rfl <;> simp [w0, h0] at ha ⊢ <;> grind

/-- A location of the plane that is strictly nearest to `q` is not on the border of the cell. -/
theorem cell_interior (E : Exact F) (k : SizeOk w h) {s : Multiset Pt} {q : Pt} (hq : InImg w h q) {cs pts : List FP} (hl : ListsCorners F w h s q cs)
    (hp : pts.Perm cs) (hs : pts.Pairwise (fun a b => cmp F ((q.x : ℚ), (q.y : ℚ)) a b = some true)) {r : FP}
    (hr : ∀ x, Site w h s x → x ≠ q → d2 ⟨r.1, r.2⟩ q < d2 ⟨r.1, r.2⟩ x) : ∀ e ∈ pairs pts, 0 < area e.1 e.2 r := by
  classical
  have C := corners_convex E k hq hl hp hs
  have Hh := corners_hull E k hq hl hp hs
  intro e he
  have hin : r ∈ convexHull ℚ {a | a ∈ pts} := (Hh r).mpr fun x hx => by
    by_cases h : x = q
    · rw [h]
    · exact (hr x hx h).le
  rcases ((C.hull r).mp hin e he).lt_or_eq with h | h0
  · exact h
  exfalso
  -- a direction out of the polygon
  have hne : e.1 ≠ e.2 := by
    intro h
    obtain ⟨i, hi, rfl⟩ := index_pairs he
    have nd : pts.Nodup := hp.nodup_iff.mpr hl.1
    have := (List.Nodup.getElem_inj_iff nd).mp h
    have h3 := C.1
    rcases Nat.lt_or_ge (i + 1) pts.length with hl | hl
    · rw [Nat.mod_eq_of_lt hl] at this; omega
    · rw [show i + 1 = pts.length by omega, Nat.mod_self] at this; omega
  set d : FP := (e.2.2 - e.1.2, -(e.2.1 - e.1.1)) with hd
  have hs : turnD e d < 0 := by
    have p1 := sq_nonneg (e.2.1 - e.1.1)
    have p2 := sq_nonneg (e.2.2 - e.1.2)
    have : turnD e d = -((e.2.1 - e.1.1) ^ 2 + (e.2.2 - e.1.2) ^ 2) := by unfold turnD; rw [hd]; ring
    rw [this]
    have : (e.2.1 - e.1.1) ^ 2 + (e.2.2 - e.1.2) ^ 2 ≠ 0 := by
      intro h
      have e1 : e.2.1 - e.1.1 = 0 := pow_eq_zero_iff two_ne_zero |>.mp (le_antisymm (by linarith) p1)
      have e2 : e.2.2 - e.1.2 = 0 := pow_eq_zero_iff two_ne_zero |>.mp (le_antisymm (by linarith) p2)
      exact hne (Prod.ext (by linarith) (by linarith))
    have := lt_of_le_of_ne (add_nonneg p1 p2) this.symm
    linarith
  -- a small step
  let T := newSuperTriangle w h
  let f := fun x : Pt => d2 ⟨r.1, r.2⟩ x - d2 ⟨r.1, r.2⟩ q
  let gg := fun x : Pt => -2 * (d.1 * ((x.x : ℚ) - q.x) + d.2 * ((x.y : ℚ) - q.y))
  have small : ∃ t : ℚ, 0 < t ∧ ∀ x ∈ (s.toFinset ∪ {T.a, T.b, T.c}).filter (· ≠ q), 0 ≤ f x + t * gg x := by
    by_cases hS : ((s.toFinset ∪ {T.a, T.b, T.c}).filter (· ≠ q)).Nonempty
    · obtain ⟨y, hy, hmin⟩ := Finset.exists_min_image _ (fun x => f x / (1 + |gg x|)) hS
      have pos : ∀ x, 0 < 1 + |gg x| := fun x => by have := abs_nonneg (gg x); linarith
      have fpos : ∀ x ∈ (s.toFinset ∪ {T.a, T.b, T.c}).filter (· ≠ q), 0 < f x := by
        intro x hx
        simp only [Finset.mem_filter, Finset.mem_union, Multiset.mem_toFinset, Finset.mem_insert, Finset.mem_singleton] at hx
        exact sub_pos.mpr (hr x hx.1 hx.2)
      have tp : 0 < f y / (1 + |gg y|) := div_pos (fpos y hy) (pos y)
      refine ⟨_, tp, fun x hx => ?_⟩
      have h1 := hmin x hx
      rw [le_div_iff₀ (pos x)] at h1
      have h2 := mul_le_mul_of_nonneg_left (neg_abs_le (gg x)) tp.le
      linarith
    · exact ⟨1, one_pos, fun x hx => absurd ⟨x, hx⟩ hS⟩
  obtain ⟨t, tp, ht⟩ := small
  have hin' : ((r.1 + t * d.1, r.2 + t * d.2) : FP) ∈ convexHull ℚ {a | a ∈ pts} := by
    refine (Hh _).mpr fun x hx => ?_
    by_cases h : x = q
    · rw [h]
    · have := ht x (by
        simp only [Finset.mem_filter, Finset.mem_union, Multiset.mem_toFinset, Finset.mem_insert, Finset.mem_singleton]
        exact ⟨hx, h⟩)
      have e2 : d2 ⟨r.1 + t * d.1, r.2 + t * d.2⟩ x - d2 ⟨r.1 + t * d.1, r.2 + t * d.2⟩ q = f x + t * gg x := by
        simp only [f, gg, d2]; ring
      simp only
      linarith
  have := (C.hull _).mp hin' e he
  rw [area_move, ← h0] at this
  have := mul_neg_of_pos_of_neg tp hs
  linarith

end Verif.Vor

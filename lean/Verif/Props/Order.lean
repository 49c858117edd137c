import Verif.Props.Picture
import Verif.Props.Cache
import Verif.Props.VorAlg
import Verif.Props.PolyPicture

/-!
# The order of the points and of the triangles (C40 and C95 with rounding)
-/

namespace Verif.Props

open Verif.Tri Verif.Spec Verif.Float Verif.Raster Verif.Fit Verif.Small Verif.Alg
open Verif.Incr hiding trunc step run Entry

/-- The error of adding up a list with rounding. -/
theorem foldl_err {fl : ℚ → ℚ} (R : Rnd 53 fl) : ∀ (l : List ℚ) (a : ℚ), l.length ≤ 2 ^ 50 →
    |l.foldl (fun s x => fl (s + x)) a - (a + l.sum)| ≤ l.length * (|a| + (l.map abs).sum) / 2 ^ 52 := by
  intro l
  induction l with
  | nil => intro a _; simp
  | cons x l ih =>
    intro a hl
    rw [List.length_cons] at hl
    have h1 := ih (fl (a + x)) (by omega)
    have h2 := R.err (a + x)
    have h3 := abs_add_le a x
    have h4 : |fl (a + x)| ≤ |fl (a + x) - (a + x)| + |a + x| := by
      have := abs_add_le (fl (a + x) - (a + x)) (a + x)
      rwa [sub_add_cancel] at this
    have hS : 0 ≤ (l.map abs).sum := List.sum_nonneg fun y hy => by
      obtain ⟨q, -, rfl⟩ := List.mem_map.mp hy
      exact abs_nonneg q
    have hk : (l.length : ℚ) ≤ 2 ^ 50 := by exact_mod_cast (by omega : l.length ≤ 2 ^ 50)
    have hk0 : (0 : ℚ) ≤ l.length := by positivity
    rw [List.foldl_cons, List.sum_cons, List.map_cons, List.sum_cons, List.length_cons]
    push_cast
    set W := |a| + |x| with hW
    have hW0 : 0 ≤ W := by positivity
    have h5 : |fl (a + x)| ≤ W + W / 2 ^ 53 := by
      have : |a + x| / 2 ^ 53 ≤ W / 2 ^ 53 := by gcongr
      linarith
    have h6 : |fl (a + x) - (a + x)| ≤ W / 2 ^ 53 := h2.trans (by gcongr)
    have h7 : |l.foldl (fun s x => fl (s + x)) (fl (a + x)) - (a + (x + l.sum))| ≤
        |l.foldl (fun s x => fl (s + x)) (fl (a + x)) - (fl (a + x) + l.sum)| + |fl (a + x) - (a + x)| := by
      have := abs_add_le (l.foldl (fun s x => fl (s + x)) (fl (a + x)) - (fl (a + x) + l.sum)) (fl (a + x) - (a + x))
      rwa [show l.foldl (fun s x => fl (s + x)) (fl (a + x)) - (fl (a + x) + l.sum) + (fl (a + x) - (a + x)) =
        l.foldl (fun s x => fl (s + x)) (fl (a + x)) - (a + (x + l.sum)) by ring] at this
    have h8 : (l.length : ℚ) * (|fl (a + x)| + (l.map abs).sum) ≤ l.length * (W + (l.map abs).sum) + W / 8 := by
      have a1 : (l.length : ℚ) * |fl (a + x)| ≤ l.length * (W + W / 2 ^ 53) := mul_le_mul_of_nonneg_left h5 hk0
      have a2 : (l.length : ℚ) * (W / 2 ^ 53) ≤ 2 ^ 50 * (W / 2 ^ 53) := mul_le_mul_of_nonneg_right hk (by positivity)
      have a3 : (2 : ℚ) ^ 50 * (W / 2 ^ 53) = W / 8 := by ring
      nlinarith
    have h9 : (l.length : ℚ) * (|fl (a + x)| + (l.map abs).sum) / 2 ^ 52 ≤ (l.length * (W + (l.map abs).sum) + W / 8) / 2 ^ 52 := by gcongr
    have h10 : ((l.length : ℚ) + 1) * (|a| + (|x| + (l.map abs).sum)) / 2 ^ 52 =
        (l.length * (W + (l.map abs).sum)) / 2 ^ 52 + W / 2 ^ 52 + (l.map abs).sum / 2 ^ 52 := by rw [hW]; ring
    rw [h10]
    have h11 : 0 ≤ (l.map abs).sum / 2 ^ 52 := by positivity
    have h12 : (l.length * (W + (l.map abs).sum) + W / 8) / 2 ^ 52 = (l.length * (W + (l.map abs).sum)) / 2 ^ 52 + W / 8 / 2 ^ 52 := by ring
    have h13 : W / 8 / 2 ^ 52 + W / 2 ^ 53 ≤ W / 2 ^ 52 := by
      have : 0 ≤ W / 2 ^ 53 := by positivity
      have e : W / 2 ^ 52 = 2 * (W / 2 ^ 53) := by ring
      have e' : W / 8 / 2 ^ 52 = W / 2 ^ 53 / 4 := by ring
      rw [e, e']
      linarith
    linarith

/-- Adding up, with rounding, values that are bounded by counts of pixels. -/
theorem accum_err {α : Type} {fl : ℚ → ℚ} (R : Rnd 53 fl) {T : List α} {V : α → ℚ} {n : α → ℕ} {P : ℚ} (h0 : 0 ≤ P) (hP : P ≤ 6800000)
    (key : ∀ t ∈ T, |V t| ≤ 260102 * n t + 1 / 1000) (N1 : (T.map fun t => (n t : ℚ)).sum ≤ P) (L1 : (T.length : ℚ) ≤ 2 * P) :
    |(T.map V).foldl (fun s x => fl (s + x)) 0 - (T.map V).sum| ≤ P * (79 / 100000) ∧ |(T.map V).sum| ≤ 260103 * P := by
  have S1 : ((T.map V).map abs).sum ≤ 260103 * P := by
    have : (T.map fun t => |V t|).sum ≤ (T.map fun t => 260102 * (n t : ℚ) + 1 / 1000).sum := List.sum_le_sum key
    have e : (T.map fun t => 260102 * (n t : ℚ) + 1 / 1000).sum = 260102 * (T.map fun t => (n t : ℚ)).sum + T.length * (1 / 1000) := by
      clear * -
      induction T with
      | nil => simp
      | cons t T ih => simp only [List.map_cons, List.sum_cons, ih, List.length_cons]; push_cast; ring
    rw [List.map_map]
    change (T.map fun t => |V t|).sum ≤ _
    linarith
  have S0 : 0 ≤ ((T.map V).map abs).sum := List.sum_nonneg fun y hy => by
    obtain ⟨q, -, rfl⟩ := List.mem_map.mp hy
    exact abs_nonneg q
  have er := foldl_err R (T.map V) 0 (by
    rw [List.length_map]
    have : (T.length : ℚ) ≤ 2 ^ 50 := L1.trans ((mul_le_mul_of_nonneg_left hP (by norm_num)).trans (by norm_num))
    exact_mod_cast this)
  rw [List.length_map, abs_zero, zero_add, zero_add] at er
  have er2 : (T.length : ℚ) * ((T.map V).map abs).sum / 2 ^ 52 ≤ 2 * P * (260103 * P) / 2 ^ 52 := by
    gcongr
  have er3 : 2 * P * (260103 * P) / 2 ^ 52 ≤ P * (79 / 100000) := by
    have : P * P ≤ P * 6800000 := mul_le_mul_of_nonneg_left hP h0
    rw [div_le_iff₀ (by norm_num)]
    norm_num
    nlinarith
  refine ⟨er.trans (er2.trans er3), le_trans ?_ S1⟩
  clear * -
  induction T with
  | nil => simp
  | cons t T ih =>
    simp only [List.map_cons, List.sum_cons]
    exact (abs_add_le _ _).trans (by linarith)

section
variable {w h : Nat} {T T' : List Tri}

/-- The fitness of a triangulation is, up to 1/200000000, what adding up the same values without rounding gives. -/
theorem eval_sum (z : ℚ) (f : Nat → Nat → Fin 256 × Fin 256 × Fin 256) {bs : Nat} (hb : 1 ≤ bs) (hb' : bs ≤ 16)
    (hw1 : 1 ≤ w) (hh1 : 1 ≤ h) (hw : w ≤ 32767) (hh : h ≤ 32767) (hwh : w * h ≤ 6800000) (M : Mesh w h T) :
    ∃ v, evalTris (rne 53) z (ofBytes (rne 53) w h f) bs T = some v ∧
      |v - ((T.map area).sum / (w * h) -
        (T.map fun t => sumsDiff (rne 53) (sumsOf (triPixels (rne 53) z (ofBytes (rne 53) w h f) t))).sum / (195075 * (w * h)))| ≤ 1 / 200000000 := by
  have R : Rnd 53 (rne 53) := rne_rnd (by norm_num)
  set I := ofBytes (rne 53) w h f with hI
  have hlen := length_visits R z hw hh M
  have hcnt := mesh_count M
  have hw0 : (0 : ℚ) < w := by exact_mod_cast hw1
  have hh0 : (0 : ℚ) < h := by exact_mod_cast hh1
  have hP : (0 : ℚ) < w * h := by positivity
  have hwhq : (w : ℚ) * h ≤ 6800000 := by exact_mod_cast hwh
  let n : Tri → ℕ := fun t => (DDATriangle (rne 53) z t).length
  let V : Tri → ℚ := fun t => sumsDiff (rne 53) (sumsOf (triPixels (rne 53) z I t))
  have key : ∀ t ∈ T, |V t| ≤ 260102 * n t + 1 / 1000 := by
    intro t ht
    have one := List.single_le_sum (l := T.map fun t => (DDATriangle (rne 53) z t).length) (fun _ _ => Nat.zero_le _) _ (List.mem_map_of_mem ht)
    obtain ⟨c0, -, h2, h3, h4, h5, -⟩ := tri_value z f hb hb' hw1 hh1 hw hh (M.img t ht) (M.nondeg t ht) (by omega) hI rfl (n := n t) rfl
    have n0 : (0 : ℚ) ≤ n t := by positivity
    have q1 : (n t : ℚ) / 2 ^ 30 ≤ n t := div_le_self n0 (by norm_num)
    have q2 : (n t : ℚ) * (1 + 1 / 2 ^ 20) ≤ n t * 2 := mul_le_mul_of_nonneg_left (by norm_num) n0
    rw [abs_le]
    constructor <;> (simp only [V]; linarith)
  have N1 : (T.map fun t => (n t : ℚ)).sum ≤ w * h := by
    rw [← cast_sum_nat]
    exact_mod_cast hlen
  have L1 : (T.length : ℚ) ≤ 2 * (w * h) := by exact_mod_cast hcnt
  obtain ⟨er, er4⟩ := accum_err R hP.le hwhq key N1 L1
  have ev : evalTris (rne 53) z I bs T = some (finish (rne 53) I ((T.map V).foldl (fun s x => rne 53 (s + x)) 0) (T.map area).sum) :=
    evalTris_eq R z (ofBytes_ok R w h f) hb hb' hw hh M
  obtain ⟨a, ha⟩ := area_sum_dy T
  have hA := M.area
  refine ⟨_, ev, ?_⟩
  rw [ha] at hA ⊢
  change |_ - ((a : ℚ) / 2 / (w * h) - (T.map V).sum / (195075 * (w * h)))| ≤ _
  generalize (T.map V).foldl (fun s x => rne 53 (s + x)) 0 = D at *
  generalize (T.map V).sum = S at *
  have er5 := abs_le.mp er
  have er6 := abs_le.mp er4
  have fin := finish_close R (I := I) hw1 hh1 hwh (a := a) hA (D := D) (by
    change |D| ≤ 2 * (195075 * ((w : ℚ) * h))
    rw [abs_le]; constructor <;> linarith)
  change |finish (rne 53) I D (a / 2) - ((a : ℚ) / 2 / (w * h) - D / (195075 * (w * h)))| ≤ 1 / 2 ^ 40 at fin
  have dif : |D / (195075 * (w * h)) - S / (195075 * (w * h))| ≤ 79 / 100000 / 195075 := by
    rw [← sub_div, abs_div, abs_of_pos (show (0 : ℚ) < 195075 * (w * h) by positivity), div_le_iff₀ (by positivity)]
    rw [abs_le]
    constructor <;> linarith
  have b1 := abs_le.mp fin
  have b2 := abs_le.mp dif
  norm_num at b1 b2
  rw [abs_le]
  constructor <;> linarith

/-- Two triangulations with the same triangles, in any order and with their vertices in any order, have fitnesses that differ by at most 1/100000000. -/
theorem eval_perm (z : ℚ) (f : Nat → Nat → Fin 256 × Fin 256 × Fin 256) {bs : Nat} (hb : 1 ≤ bs) (hb' : bs ≤ 16)
    (hw1 : 1 ≤ w) (hh1 : 1 ≤ h) (hw : w ≤ 32767) (hh : h ≤ 32767) (hwh : w * h ≤ 6800000) (M : Mesh w h T) (M' : Mesh w h T')
    (P : (T.map verts).Perm (T'.map verts)) :
    ∃ v v', evalTris (rne 53) z (ofBytes (rne 53) w h f) bs T = some v ∧ evalTris (rne 53) z (ofBytes (rne 53) w h f) bs T' = some v' ∧
      |v' - v| ≤ 1 / 100000000 := by
  have R : Rnd 53 (rne 53) := rne_rnd (by norm_num)
  obtain ⟨v, e, b⟩ := eval_sum z f hb hb' hw1 hh1 hw hh hwh M
  obtain ⟨v', e', b'⟩ := eval_sum z f hb hb' hw1 hh1 hw hh hwh M'
  have nd : ∀ t ∈ T ++ T', NonDegenerate t := fun t ht => (List.mem_append.mp ht).elim (M.nondeg t) (M'.nondeg t)
  have P1 : (T.map fun t => sumsDiff (rne 53) (sumsOf (triPixels (rne 53) z (ofBytes (rne 53) w h f) t))).Perm
      (T'.map fun t => sumsDiff (rne 53) (sumsOf (triPixels (rne 53) z (ofBytes (rne 53) w h f) t))) :=
    map_perm_of P fun t ht t' ht' hv => piece_verts R z (nd t ht) (nd t' ht') hv
  have P2 : (T.map area).Perm (T'.map area) :=
    map_perm_of P fun t ht t' ht' hv => area_verts (nd t ht) (nd t' ht') hv
  rw [P1.sum_eq, P2.sum_eq] at b
  refine ⟨v, v', e, e', ?_⟩
  have c := abs_le.mp b
  have c' := abs_le.mp b'
  rw [abs_le]
  constructor <;> linarith

end

section
variable {g : Geo} {fl : ℚ → ℚ} {z : ℚ} {I : Img} {bs N : Nat} {bf : D → D → Bufs}

/-- **C40** with IEEE arithmetic (partial: in general position, under `Arith`, images of at most 6800000 pixels): the fitness from the base and the recorded
mutations differs by at most 1/100000000 from that of a triangulation built afresh from the points. -/
theorem c40_ieee_partial {w h : Nat} {f : Nat → Nat → Fin 256 × Fin 256 × Fin 256} (A : ∀ ops, Arith g (rne 53) w h ops) (hwh : w * h ≤ 6800000)
    (hb : 1 ≤ bs) (hb' : bs ≤ 16) (hN : N ≤ 32767)
    {n k : Nat} (hk : 1 ≤ k) {cs : List Call} {i : Nat} {ps : List NP} {ms : List Mut} {B : Book} {p : List Bool}
    (hB : Recordeds Alg.Unit01 N (Book.new n) (cs ++ [.calculate i ps ms]) B) (hf : flags (List.replicate n false) (cs ++ [.calculate i ps ms]) = some p)
    (gp : GeneralPosition (fun v => v ∈ pix (rne 53) (ofBytes (rne 53) w h f) ps ∨ IsVertex (newSuperTriangle w h) v)) :
    ∃ s v s' d v', calls (triFun g (rne 53) z (ofBytes (rne 53) w h f) bs bf) (newParallel n k) cs = some s ∧
      calculate (triFun g (rne 53) z (ofBytes (rne 53) w h f) bs bf) s i ps ms = some (v, s') ∧
      exec g (rne 53) w h ((pix (rne 53) (ofBytes (rne 53) w h f) ps).map .ins) = some d ∧
      evalTris (rne 53) z (ofBytes (rne 53) w h f) bs (iterTriangles d) = some v' ∧ |v' - v| ≤ 1 / 100000000 := by
  have R : Rnd 53 (rne 53) := rne_rnd (by norm_num)
  have sz := (A []).size
  have hw : w ≤ 32767 := sz.w2.trans (by norm_num)
  have hh : h ≤ 32767 := sz.h2.trans (by norm_num)
  obtain ⟨s, v, s', hs, hv, len, u, ops, m, d0, H, e, ev⟩ := c40_own_points_partial (I := ofBytes (rne 53) w h f) (z := z) (bf := bf) R A
    (ofBytes_ok R w h f) hb hb' hN hk hB hf
  obtain ⟨m', H'⟩ := hist_ins (pix (rne 53) (ofBytes (rne 53) w h f) ps) (Hist.nil (w := w) (h := h)) (pix_img R hw hh u) (by simp [pix]; omega)
  rw [List.nil_append, zero_add] at H'
  obtain ⟨d, e'⟩ := c06_c07_run_ok_partial (A _) H'
  have P := ((c09_history_independent_partial (A _) H e (A _) H' e' (fun _ => Iff.rfl)).2 (by simpa using gp)).2
  obtain ⟨v1, v2, e1, e2, b⟩ := eval_perm z f hb hb' sz.w1 sz.h1 hw hh hwh (mesh_of (A _) H e) (mesh_of (A _) H' e') P
  have : v1 = v := Option.some_injective _ (e1.symm.trans ev)
  subst this
  exact ⟨s, v1, s', d, v2, hs, hv, e', e2, b⟩

/-- The triangulations of two lists of points that are the same set of pixels, in general position. -/
theorem same_set {w h : Nat} (A : ∀ ops, Arith g fl w h ops) {l l' : List Pt} (hl : l.length ≤ 32767) (hl' : l'.length ≤ 32767)
    (hi : ∀ p ∈ l, InImg w h p) (hi' : ∀ p ∈ l', InImg w h p) (hs : ∀ q, q ∈ l ↔ q ∈ l')
    (gp : GeneralPosition (fun v => v ∈ l ∨ IsVertex (newSuperTriangle w h) v)) :
    ∃ d d', exec g fl w h (l.map .ins) = some d ∧ exec g fl w h (l'.map .ins) = some d' ∧ Mesh w h (iterTriangles d) ∧ Mesh w h (iterTriangles d') ∧
      ((iterTriangles d).map verts).Perm ((iterTriangles d').map verts) := by
  obtain ⟨m, H⟩ := hist_ins l (Hist.nil (w := w) (h := h)) hi (by simpa using hl)
  obtain ⟨m', H'⟩ := hist_ins l' (Hist.nil (w := w) (h := h)) hi' (by simpa using hl')
  rw [List.nil_append, zero_add] at H H'
  obtain ⟨d, e⟩ := c06_c07_run_ok_partial (A _) H
  obtain ⟨d', e'⟩ := c06_c07_run_ok_partial (A _) H'
  exact ⟨d, d', e, e', mesh_of (A _) H e, mesh_of (A _) H' e',
    ((c09_history_independent_partial (A _) H e (A _) H' e' (by simpa using hs)).2 (by simpa using gp)).2⟩

/-- **C95** without rounding (partial: in general position, under `Arith`): functions given lists with the same set of pixel points, in any order and with
any repetitions, compute the same fitness. -/
theorem c95_exact_partial (hid : ∀ x, fl x = x) (A : ∀ ops, Arith g fl I.w I.h ops) (hI : I.OK) (hb : 1 ≤ bs) (hb' : bs ≤ 16)
    {n k i n' k' i' : Nat} {ps qs : List NP} {ms ms' : List Mut} {v v' : ℚ} {s s' : Sys D Tri} (hl : ps.length ≤ 32767) (hl' : qs.length ≤ 32767)
    (hu : ∀ p ∈ ps, Alg.Unit01 p) (hu' : ∀ p ∈ qs, Alg.Unit01 p) (hs : ∀ q, q ∈ pix fl I ps ↔ q ∈ pix fl I qs)
    (gp : GeneralPosition (fun v => v ∈ pix fl I ps ∨ IsVertex (newSuperTriangle I.w I.h) v))
    (hv : calculate (triFun g fl z I bs bf) (newParallel n k) i ps ms = some (v, s))
    (hv' : calculate (triFun g fl z I bs bf) (newParallel n' k') i' qs ms' = some (v', s')) : v' = v := by
  have R : Rnd 53 fl := by
    have : fl = fun x => x := funext hid
    rw [this]
    exact id_rnd 53
  have hw : I.w ≤ 32767 := (A []).size.w2.trans (by norm_num)
  have hh : I.h ≤ 32767 := (A []).size.h2.trans (by norm_num)
  obtain ⟨d, d', e, e', M, M', P⟩ := same_set A (l := pix fl I ps) (l' := pix fl I qs) (by simpa [pix] using hl) (by simpa [pix] using hl')
    (pix_img R hw hh hu) (pix_img R hw hh hu') hs gp
  obtain ⟨d1, x1, y1⟩ := c41_first_call hv
  obtain ⟨d2, x2, y2⟩ := c41_first_call hv'
  rw [e] at x1
  rw [e'] at x2
  cases x1
  cases x2
  have nd : ∀ t ∈ iterTriangles d ++ iterTriangles d', NonDegenerate t := fun t ht => (List.mem_append.mp ht).elim (M.nondeg t) (M'.nondeg t)
  have P1 : ((iterTriangles d).map fun t => sumsDiff fl (sumsOf (triPixels fl z I t))).Perm
      ((iterTriangles d').map fun t => sumsDiff fl (sumsOf (triPixels fl z I t))) :=
    map_perm_of P fun t ht t' ht' hv => piece_verts R z (nd t ht) (nd t' ht') hv
  have P2 : ((iterTriangles d).map area).Perm ((iterTriangles d').map area) :=
    map_perm_of P fun t ht t' ht' hv => area_verts (nd t ht) (nd t' ht') hv
  rw [evalTris_eq R z hI hb hb' hw hh M] at y1
  rw [evalTris_eq R z hI hb hb' hw hh M'] at y2
  have fs : ∀ (l : List ℚ) (a : ℚ), l.foldl (fun s x => fl (s + x)) a = a + l.sum := by
    intro l
    induction l with
    | nil => intro a; simp
    | cons x l ih => intro a; rw [List.foldl_cons, ih, hid, List.sum_cons]; ring
  rw [fs, P1.sum_eq, P2.sum_eq] at y1
  rw [fs] at y2
  exact Option.some_injective _ (y2.symm.trans y1)

/-- **C95** with IEEE arithmetic (partial: in general position, under `Arith`, images of at most 6800000 pixels): the fitnesses differ by at most
1/100000000. -/
theorem c95_ieee_partial {w h : Nat} {f : Nat → Nat → Fin 256 × Fin 256 × Fin 256} (A : ∀ ops, Arith g (rne 53) w h ops) (hwh : w * h ≤ 6800000)
    (hb : 1 ≤ bs) (hb' : bs ≤ 16)
    {n k i n' k' i' : Nat} {ps qs : List NP} {ms ms' : List Mut} {v v' : ℚ} {s s' : Sys D Tri} (hl : ps.length ≤ 32767) (hl' : qs.length ≤ 32767)
    (hu : ∀ p ∈ ps, Alg.Unit01 p) (hu' : ∀ p ∈ qs, Alg.Unit01 p)
    (hs : ∀ q, q ∈ pix (rne 53) (ofBytes (rne 53) w h f) ps ↔ q ∈ pix (rne 53) (ofBytes (rne 53) w h f) qs)
    (gp : GeneralPosition (fun v => v ∈ pix (rne 53) (ofBytes (rne 53) w h f) ps ∨ IsVertex (newSuperTriangle w h) v))
    (hv : calculate (triFun g (rne 53) z (ofBytes (rne 53) w h f) bs bf) (newParallel n k) i ps ms = some (v, s))
    (hv' : calculate (triFun g (rne 53) z (ofBytes (rne 53) w h f) bs bf) (newParallel n' k') i' qs ms' = some (v', s')) :
    |v' - v| ≤ 1 / 100000000 := by
  have R : Rnd 53 (rne 53) := rne_rnd (by norm_num)
  have sz := (A []).size
  have hw : w ≤ 32767 := sz.w2.trans (by norm_num)
  have hh : h ≤ 32767 := sz.h2.trans (by norm_num)
  obtain ⟨d, d', e, e', M, M', P⟩ := same_set A (by simpa [pix] using hl) (by simpa [pix] using hl')
    (pix_img (I := ofBytes (rne 53) w h f) R hw hh hu) (pix_img (I := ofBytes (rne 53) w h f) R hw hh hu') hs gp
  obtain ⟨d1, x1, y1⟩ := c41_first_call hv
  obtain ⟨d2, x2, y2⟩ := c41_first_call hv'
  have z1 : d = d1 := Option.some_injective _ (e.symm.trans x1)
  have z2 : d' = d2 := Option.some_injective _ (e'.symm.trans x2)
  subst z1 z2
  obtain ⟨v1, v2, e1, e2, b⟩ := eval_perm z f hb hb' sz.w1 sz.h1 hw hh hwh M M' P
  have z3 : v1 = v := Option.some_injective _ (e1.symm.trans y1)
  have z4 : v2 = v' := Option.some_injective _ (e2.symm.trans y2)
  subst z3 z4
  exact b

end

/-! ### Polygons -/

section
open Verif.Vor hiding Sorter
variable {vs : Vor.Sorter} {bs : Nat} {z : ℚ} {bf : V → V → VBufs}

theorem sqErr_black (f : Nat → Nat → Fin 256 × Fin 256 × Fin 256) : ∀ qs : List (Int × Int), sqErr (qs.map (byteCol f)) (0, 0, 0) ≤ 195075 * qs.length
  | [] => by simp [sqErr]
  | q :: qs => by
    have ih := sqErr_black f qs
    have b : ∀ k : Fin 256, ((k.val : ℚ) - 0) ^ 2 ≤ 65025 := by
      intro k
      have : (k.val : ℚ) ≤ 255 := by exact_mod_cast Nat.lt_succ_iff.mp k.isLt
      have : (0 : ℚ) ≤ k.val := by positivity
      nlinarith
    have h1 := b (f q.1.toNat q.2.toNat).1
    have h2 := b (f q.1.toNat q.2.toNat).2.1
    have h3 := b (f q.1.toNat q.2.toNat).2.2
    unfold sqErr at ih ⊢
    simp only [List.map_cons, List.sum_cons, List.length_cons]
    push_cast
    have : dist2 (byteCol f q) (0, 0, 0) ≤ 195075 := by unfold dist2 byteCol; simp only; linarith
    linarith

/-- The conditions of `c92_ieee_partial` on the rounded polygons: they are in the image, no triangle of a fan is degenerate, and altogether they have no more
pixels than the image. -/
structure PolysOK (w h : Nat) (z : ℚ) (Q : List (List Pt)) : Prop where
  img : ∀ ps ∈ Q, PolyIn w h ps
  fans : ∀ ps ∈ Q, ∀ t ∈ fan ps, NonDegenerate t
  size : (Q.map fun ps => (DDAPolygon (rne 53) z ps).length).sum ≤ w * h
  len : Q.length ≤ 2 * (w * h)

/-- The fitness of polygons is, up to 1/200000000, what adding up the same values without rounding gives. -/
theorem polys_sum {w h : Nat} (z : ℚ) (f : Nat → Nat → Fin 256 × Fin 256 × Fin 256) {P : List (List (ℚ × ℚ))} (hb : 1 ≤ bs) (hb' : bs ≤ 16)
    (hw1 : 1 ≤ w) (hh1 : 1 ≤ h) (hw : w ≤ 32768) (hh : h ≤ 32768) (hwh : w * h ≤ 6800000) (K : PolysOK w h z (P.map (roundPoly (rne 53)))) :
    ∃ v, evalPolys (rne 53) z (ofBytes (rne 53) w h f) bs P = some v ∧
      |v - (1 - ((P.map (roundPoly (rne 53))).map fun ps => (polyValue (rne 53) z (ofBytes (rne 53) w h f) bs ps).getD 0).sum / (195075 * (w * h)))| ≤
        1 / 200000000 := by
  have R : Rnd 53 (rne 53) := rne_rnd (by norm_num)
  set I := ofBytes (rne 53) w h f with hI
  generalize hPQ : P.map (roundPoly (rne 53)) = Q at K
  have hw0 : (0 : ℚ) < w := by exact_mod_cast hw1
  have hh0 : (0 : ℚ) < h := by exact_mod_cast hh1
  have hP : (0 : ℚ) < w * h := by positivity
  have hwhq : (w : ℚ) * h ≤ 6800000 := by exact_mod_cast hwh
  let n : List Pt → ℕ := fun ps => (DDAPolygon (rne 53) z ps).length
  let V : List Pt → ℚ := fun ps => (polyValue (rne 53) z I bs ps).getD 0
  have key : ∀ ps ∈ Q, polyValue (rne 53) z I bs ps = some (V ps) ∧ |V ps| ≤ 260102 * n ps + 1 / 1000 := by
    intro ps hps
    have one := List.single_le_sum (l := Q.map fun ps => (DDAPolygon (rne 53) z ps).length) (fun _ _ => Nat.zero_le _) _ (List.mem_map_of_mem hps)
    have hsz := K.size
    obtain ⟨v, hv, hu, hl⟩ := c84_ieee_partial z hw hh f (K.img ps hps) (K.fans ps hps) hb hb' (by omega)
    have hVv : V ps = v := by simp only [V]; rw [hv]; rfl
    rw [hVv]
    refine ⟨hv, ?_⟩
    have u := hu (0, 0, 0)
    have u1 := sqErr_black f (DDAPolygon (rne 53) z ps)
    have l1 : 0 ≤ sqErr (polyCols (rne 53) z f ps) (mean (polyCols (rne 53) z f ps)) := List.sum_nonneg fun x hx => by
      obtain ⟨q, -, rfl⟩ := List.mem_map.mp hx
      unfold dist2
      positivity
    have l2 : ((polyCols (rne 53) z f ps).length : ℚ) = n ps := by unfold polyCols; simp [n]
    rw [l2] at hl
    change sqErr (polyCols (rne 53) z f ps) (0, 0, 0) ≤ 195075 * (n ps : ℚ) at u1
    have n0 : (0 : ℚ) ≤ n ps := by positivity
    rw [abs_le]
    constructor <;> linarith
  have N1 : (Q.map fun ps => (n ps : ℚ)).sum ≤ w * h := by
    rw [← cast_sum_nat]
    exact_mod_cast K.size
  have L1 : (Q.length : ℚ) ≤ 2 * (w * h) := by exact_mod_cast K.len
  obtain ⟨er, er4⟩ := accum_err R hP.le hwhq (fun ps hps => (key ps hps).2) N1 L1
  have ev : evalPolys (rne 53) z I bs P = some (polyFinish (rne 53) I ((Q.map V).foldl (fun s x => rne 53 (s + x)) 0)) := by
    rw [evalPolys_eq (V := V) (by rw [hPQ]; exact fun ps hps => (key ps hps).1), hPQ]
  refine ⟨_, ev, ?_⟩
  change |_ - (1 - (Q.map V).sum / (195075 * (w * h)))| ≤ _
  generalize (Q.map V).foldl (fun s x => rne 53 (s + x)) 0 = D at *
  generalize (Q.map V).sum = S at *
  have er5 := abs_le.mp er
  have er6 := abs_le.mp er4
  have fin := polyFinish_close R (I := I) hw1 hh1 hwh (D := D) (by
    change |D| ≤ 2 * (195075 * ((w : ℚ) * h))
    rw [abs_le]; constructor <;> linarith)
  change |polyFinish (rne 53) I D - (1 - D / (195075 * (w * h)))| ≤ 1 / 2 ^ 40 at fin
  have dif : |D / (195075 * (w * h)) - S / (195075 * (w * h))| ≤ 79 / 100000 / 195075 := by
    rw [← sub_div, abs_div, abs_of_pos (show (0 : ℚ) < 195075 * (w * h) by positivity), div_le_iff₀ (by positivity)]
    rw [abs_le]
    constructor <;> linarith
  have b1 := abs_le.mp fin
  have b2 := abs_le.mp dif
  norm_num at b1 b2
  rw [abs_le]
  constructor <;> linarith

/-- The order of the polygons changes the fitness by at most 1/100000000. -/
theorem polys_perm_close {w h : Nat} (z : ℚ) (f : Nat → Nat → Fin 256 × Fin 256 × Fin 256) {P P' : List (List (ℚ × ℚ))} (hb : 1 ≤ bs) (hb' : bs ≤ 16)
    (hw1 : 1 ≤ w) (hh1 : 1 ≤ h) (hw : w ≤ 32768) (hh : h ≤ 32768) (hwh : w * h ≤ 6800000) (K : PolysOK w h z (P.map (roundPoly (rne 53)))) (p : P.Perm P') :
    ∃ v v', evalPolys (rne 53) z (ofBytes (rne 53) w h f) bs P = some v ∧ evalPolys (rne 53) z (ofBytes (rne 53) w h f) bs P' = some v' ∧
      |v' - v| ≤ 1 / 100000000 := by
  have q : (P.map (roundPoly (rne 53))).Perm (P'.map (roundPoly (rne 53))) := p.map _
  have K' : PolysOK w h z (P'.map (roundPoly (rne 53))) :=
    ⟨fun ps hps => K.img ps (q.mem_iff.mpr hps), fun ps hps => K.fans ps (q.mem_iff.mpr hps), by rw [← (q.map _).sum_eq]; exact K.size, by rw [← q.length_eq]; exact K.len⟩
  obtain ⟨v, e, b⟩ := polys_sum z f hb hb' hw1 hh1 hw hh hwh K
  obtain ⟨v', e', b'⟩ := polys_sum z f hb hb' hw1 hh1 hw hh hwh K'
  rw [(q.map _).sum_eq] at b
  refine ⟨v, v', e, e', ?_⟩
  have c := abs_le.mp b
  have c' := abs_le.mp b'
  rw [abs_le]
  constructor <;> linarith

/-- **C77** with IEEE arithmetic (partial: under `VArith`, as long as no panic occurs, no indistinguishable corners among the cells of these points, `PolysOK`,
images of at most 6800000 pixels): the fitness from the base and the recorded mutations differs by at most 1/100000000 from that of a diagram built afresh. -/
theorem c77_ieee_partial {g : Geo} {w h N : Nat} {f : Nat → Nat → Fin 256 × Fin 256 × Fin 256} (A : ∀ ops, VArith g ieee w h ops) (S : SorterOK vs) (hwh : w * h ≤ 6800000)
    (hb : 1 ≤ bs) (hb' : bs ≤ 16) (hN : N ≤ 32767)
    {n k : Nat} (hk : 1 ≤ k) {cs : List Call} {i : Nat} {ps : List NP} {ms : List Mut} {B : Book} {p : List Bool}
    (hB : Recordeds Alg.Unit01 N (Book.new n) (cs ++ [.calculate i ps ms]) B) (hf : flags (List.replicate n false) (cs ++ [.calculate i ps ms]) = some p)
    {s s' : Sys V (List Pt)} {v : ℚ} (hs : calls (vorFun g ieee vs z (ofBytes (rne 53) w h f) bs bf) (newParallel n k) cs = some s)
    (hv : calculate (vorFun g ieee vs z (ofBytes (rne 53) w h f) bs bf) s i ps ms = some (v, s'))
    (hc : ∀ q ∈ pix (rne 53) (ofBytes (rne 53) w h f) ps, ¬ CellClash ieee w h ↑(pix (rne 53) (ofBytes (rne 53) w h f) ps) q)
    {d : V} (e : vExec g ieee vs w h ((pix (rne 53) (ofBytes (rne 53) w h f) ps).map .ins) = some d) (K : PolysOK w h z ((iterPolygons d).map (roundPoly (rne 53)))) :
    ∃ v', evalPolys (rne 53) z (ofBytes (rne 53) w h f) bs (iterPolygons d) = some v' ∧ |v' - v| ≤ 1 / 100000000 := by
  have R : Rnd 53 (rne 53) := rne_rnd (by norm_num)
  have sz := (A []).tri.size
  obtain ⟨ops, m, d0, H, e0, ev, h4⟩ := c77_evaluation_partial (I := ofBytes (rne 53) w h f) A S (ofBytes_ok R w h f) hb hb' hN hk hB hf hs hv
  obtain ⟨v1, v2, e1, e2, b⟩ := polys_perm_close z f hb hb' sz.w1 sz.h1 (sz.w2.trans (by norm_num)) (sz.h2.trans (by norm_num)) hwh K (h4 hc d e).1.symm
  have : v2 = v := Option.some_injective _ (e2.symm.trans ev)
  subst this
  rw [abs_sub_comm] at b
  exact ⟨v1, e1, b⟩

/-- A first call is a recorded history. -/
theorem first_recorded {n i : Nat} (hi : i < n) {ps : List NP} (hu : ∀ p ∈ ps, Alg.Unit01 p) (ms : List Mut) :
    (∃ B, Recordeds Alg.Unit01 ps.length (Book.new n) ([] ++ [.calculate i ps ms]) B) ∧ ∃ p, flags (List.replicate n false) ([] ++ [.calculate i ps ms]) = some p := by
  refine ⟨⟨_, .cons (.first (id := i) (by simp [Book.new, hi]) rfl rfl hu) (.nil _)⟩, ?_⟩
  simp [flags, flag, hi]

/-- **C95** for polygons with IEEE arithmetic (partial: under `VArith`, as long as no panic occurs, no indistinguishable corners among the cells of these
points, `PolysOK`, images of at most 6800000 pixels): the fitnesses differ by at most 1/100000000. -/
theorem c95_polygons_ieee_partial {g : Geo} {w h : Nat} {f : Nat → Nat → Fin 256 × Fin 256 × Fin 256} (A : ∀ ops, VArith g ieee w h ops) (S : SorterOK vs)
    (hwh : w * h ≤ 6800000) (hb : 1 ≤ bs) (hb' : bs ≤ 16)
    {n k i n' k' i' : Nat} (hk : 1 ≤ k) (hk' : 1 ≤ k') (hi : i < n) (hi' : i' < n') {ps qs : List NP} {ms ms' : List Mut} (hl : ps.length ≤ 32767) (hl' : qs.length ≤ 32767)
    (hu : ∀ p ∈ ps, Alg.Unit01 p) (hu' : ∀ p ∈ qs, Alg.Unit01 p)
    (hs : ∀ q, q ∈ pix (rne 53) (ofBytes (rne 53) w h f) ps ↔ q ∈ pix (rne 53) (ofBytes (rne 53) w h f) qs)
    (hc : ∀ q ∈ pix (rne 53) (ofBytes (rne 53) w h f) ps, ¬ CellClash ieee w h ↑(pix (rne 53) (ofBytes (rne 53) w h f) ps) q)
    {d : V} (e : vExec g ieee vs w h ((pix (rne 53) (ofBytes (rne 53) w h f) ps).map .ins) = some d) (K : PolysOK w h z ((iterPolygons d).map (roundPoly (rne 53))))
    {v v' : ℚ} {s s' : Sys V (List Pt)} (hv : calculate (vorFun g ieee vs z (ofBytes (rne 53) w h f) bs bf) (newParallel n k) i ps ms = some (v, s))
    (hv' : calculate (vorFun g ieee vs z (ofBytes (rne 53) w h f) bs bf) (newParallel n' k') i' qs ms' = some (v', s')) : |v' - v| ≤ 1 / 100000000 := by
  have R : Rnd 53 (rne 53) := rne_rnd (by norm_num)
  have sz := (A []).tri.size
  have hw : w ≤ 32767 := sz.w2.trans (by norm_num)
  have hh : h ≤ 32767 := sz.h2.trans (by norm_num)
  obtain ⟨⟨B, hB⟩, p, hf⟩ := first_recorded hi hu ms
  obtain ⟨⟨B', hB'⟩, p', hf'⟩ := first_recorded hi' hu' ms'
  obtain ⟨ops, m, d1, H, e1, ev, -⟩ := c77_evaluation_partial (I := ofBytes (rne 53) w h f) A S (ofBytes_ok R w h f) hb hb' hl hk hB hf rfl hv
  obtain ⟨ops', m', d2, H', e2, ev', -⟩ := c77_evaluation_partial (I := ofBytes (rne 53) w h f) A S (ofBytes_ok R w h f) hb hb' hl' hk' hB' hf' rfl hv'
  obtain ⟨⟨m0, H0⟩, -⟩ := vor_build (g := g) (F := ieee) (vs := vs) (z := z) (I := ofBytes (rne 53) w h f) (bs := bs) (bf := bf) R hw hh hl hu
  have P1 := polygons_perm_set (A _) H0 e (A _) H e1 S (fun _ => Iff.rfl) hc
  have P2 := polygons_perm_set (A _) H e1 (A _) H' e2 S (by simp only [Multiset.mem_coe]; exact hs) hc
  have K1 : PolysOK w h z ((iterPolygons d1).map (roundPoly (rne 53))) := by
    have q := P1.map (roundPoly (rne 53))
    exact ⟨fun ps hps => K.img ps (q.mem_iff.mpr hps), fun ps hps => K.fans ps (q.mem_iff.mpr hps), by rw [← (q.map _).sum_eq]; exact K.size,
      by rw [← q.length_eq]; exact K.len⟩
  obtain ⟨v1, v2, f1, f2, b⟩ := polys_perm_close z f hb hb' sz.w1 sz.h1 (by omega) (by omega) hwh K1 P2
  have z1 : v1 = v := Option.some_injective _ (f1.symm.trans ev)
  have z2 : v2 = v' := Option.some_injective _ (f2.symm.trans ev')
  subst z1 z2
  exact b

/-- **C95** for polygons, without rounding: functions given lists with the same set of pixel points, in any order and with any repetitions, compute the same
fitness, whether or not the points lie on one circle. -/
theorem c95_polygons_exact {w h : Nat} (hsz : SizeOk w h) (px : Nat → Nat → Fin 256 × Fin 256 × Fin 256) (S : SorterOK vs) (hb : 1 ≤ bs) (hb' : bs ≤ 16)
    {n k i n' k' i' : Nat} (hk : 1 ≤ k) (hk' : 1 ≤ k') (hi : i < n) (hi' : i' < n') {ps qs : List NP} (ms ms' : List Mut) (hl : ps.length ≤ 32767) (hl' : qs.length ≤ 32767)
    (hu : ∀ p ∈ ps, Alg.Unit01 p) (hu' : ∀ p ∈ qs, Alg.Unit01 p)
    (hs : ∀ q, q ∈ pix (fun x => x) (ofBytes (fun x => x) w h px) ps ↔ q ∈ pix (fun x => x) (ofBytes (fun x => x) w h px) qs) :
    ∃ v s s', calculate (vorFun (gridGeo exactOps w h) exactOps vs z (ofBytes (fun x => x) w h px) bs bf) (newParallel n k) i ps ms = some (v, s) ∧
      calculate (vorFun (gridGeo exactOps w h) exactOps vs z (ofBytes (fun x => x) w h px) bs bf) (newParallel n' k') i' qs ms' = some (v, s') := by
  obtain ⟨⟨B, hB⟩, p, hf⟩ := first_recorded hi hu ms
  obtain ⟨⟨B', hB'⟩, p', hf'⟩ := first_recorded hi' hu' ms'
  obtain ⟨s0, s, v, d, h0, h1, e, h2⟩ := c77_exact (z := z) (bf := bf) hsz px S hb hb' hl hk hB hf
  obtain ⟨s0', s', v', d', h0', h1', e', h2'⟩ := c77_exact (z := z) (bf := bf) hsz px S hb hb' hl' hk' hB' hf'
  cases h0
  cases h0'
  have hw : w ≤ 32767 := hsz.w2.trans (by norm_num)
  have hh : h ≤ 32767 := hsz.h2.trans (by norm_num)
  obtain ⟨⟨m, H⟩, -⟩ := vor_build (g := gridGeo exactOps w h) (F := exactOps) (vs := vs) (z := z) (I := ofBytes (fun x => x) w h px) (bs := bs) (bf := bf)
    (id_rnd 53) hw hh hl hu
  obtain ⟨⟨m', H'⟩, -⟩ := vor_build (g := gridGeo exactOps w h) (F := exactOps) (vs := vs) (z := z) (I := ofBytes (fun x => x) w h px) (bs := bs) (bf := bf)
    (id_rnd 53) hw hh hl' hu'
  have P := polygons_perm_set (varith_exact hsz) H e (varith_exact hsz) H' e' S (by simp only [Multiset.mem_coe]; exact hs) fun q _ => exact_no_clash exactOps_exact w h _ q
  rw [evalPolys_perm (fun _ => rfl) P, h2'] at h2
  cases h2
  exact ⟨v, s, s', h1, h1'⟩

end

/-- The corners of the unit square in another order. -/
def turnedCorners : List NP := [⟨0, 0⟩, ⟨1, 0⟩, ⟨1, 1⟩, ⟨0, 1⟩]

/-- **C95** is false of points on one circle, even in exact arithmetic: in one order the corners of the square have fitness 1, in another 23/30. -/
theorem c95_cocircular_false : unitCorners.Perm turnedCorners ∧
    ((calculate splitFun (newParallel 1 3) 0 unitCorners []).map fun x => decide (x.1 = 23 / 30)) = some true ∧
    ((calculate splitFun (newParallel 1 3) 0 turnedCorners []).map fun x => decide (x.1 = 1)) = some true := by
  refine ⟨?_, ?_, ?_⟩
  · exact ((List.Perm.swap _ _ _).cons _).cons _
  · decide +kernel
  · decide +kernel

/-- The assumptions of `c95_polygons_exact` hold of the corners in those two orders, the last one repeated. -/
example : ∃ v s s', calculate (vorFun (gridGeo exactOps 4 4) exactOps Vor.goSort 0 (ofBytes (fun x => x) 4 4 fun x y => if x + y ≤ 3 then (0, 0, 0) else (255, 255, 255)) 1
      noVBufs) (newParallel 1 3) 0 unitCorners [] = some (v, s) ∧
    calculate (vorFun (gridGeo exactOps 4 4) exactOps Vor.goSort 0 (ofBytes (fun x => x) 4 4 fun x y => if x + y ≤ 3 then (0, 0, 0) else (255, 255, 255)) 1
      noVBufs) (newParallel 1 3) 0 (⟨0, 1⟩ :: turnedCorners) [] = some (v, s') := by
  have u : ∀ p ∈ (⟨0, 1⟩ :: turnedCorners), Alg.Unit01 p := by
    intro p hp
    simp only [turnedCorners, List.mem_cons, List.not_mem_nil, or_false] at hp
    rcases hp with rfl | rfl | rfl | rfl | rfl <;> (unfold Alg.Unit01; norm_num)
  have P := c95_cocircular_false.1
  refine c95_polygons_exact tiny_size _ Vor.goSort_ok (by norm_num) (by norm_num) (by norm_num) (by norm_num) (by norm_num) (by norm_num) [] [] (by decide) (by decide)
    (fun p hp => u p (List.mem_cons_of_mem _ (P.mem_iff.mp hp))) u fun q => ?_
  unfold pix
  rw [(P.map _).mem_iff, List.map_cons, List.mem_cons]
  refine ⟨Or.inr, ?_⟩
  rintro (rfl | h)
  · exact List.mem_map_of_mem (by simp [turnedCorners])
  · exact h

/-- One of two bytes. -/
def noise (k x y : Nat) : Fin 256 := if ((x * 104729 + y * 1299709 + k * 15485863) * 1103515245 / 65536) % 2 = 0 then 0 else 255

/-- A 9 x 9 image of irregular pixels. -/
def noisePx (x y : Nat) : Fin 256 × Fin 256 × Fin 256 := (noise 26 x y, noise 27 x y, noise 28 x y)

/-- Seven points. -/
def sevenPoints : List NP := [⟨0, 0⟩, ⟨1, 1 / 9⟩, ⟨0, 1⟩, ⟨8 / 9, 1⟩, ⟨4 / 9, 2 / 9⟩, ⟨5 / 9, 7 / 9⟩, ⟨2 / 9, 6 / 9⟩]

theorem seven_pix : pix (rne 53) (ofBytes (rne 53) 9 9 noisePx) sevenPoints = [⟨0, 0⟩, ⟨9, 1⟩, ⟨0, 9⟩, ⟨8, 9⟩, ⟨4, 2⟩, ⟨5, 7⟩, ⟨2, 6⟩] := by decide +kernel

theorem seven_general : GeneralPosition (fun v => v ∈ pix (rne 53) (ofBytes (rne 53) 9 9 noisePx) sevenPoints ∨ IsVertex (newSuperTriangle 9 9) v) := by
  refine general_of (l := [⟨0, 0⟩, ⟨9, 1⟩, ⟨0, 9⟩, ⟨8, 9⟩, ⟨4, 2⟩, ⟨5, 7⟩, ⟨2, 6⟩, ⟨-13, -4⟩, ⟨5, 23⟩, ⟨23, -4⟩]) ?_ (by decide +kernel)
  rintro p (h | h)
  · rw [seven_pix] at h
    simp only [List.mem_cons, List.not_mem_nil, or_false] at h ⊢
    tauto
  · have : newSuperTriangle 9 9 = ⟨⟨-13, -4⟩, ⟨5, 23⟩, ⟨23, -4⟩⟩ := by decide +kernel
    rw [this] at h
    unfold IsVertex at h
    simp only [List.mem_cons, List.not_mem_nil, or_false]
    tauto

/-- The function of that image, with IEEE arithmetic. -/
def noiseFun : Fun D Tri :=
  triFun (gridGeo ieee 9 9) (rne 53) 0 (ofBytes (rne 53) 9 9 noisePx) 1 (fun _ _ => ⟨[], [], fun _ _ => [], fun _ => []⟩)

theorem noise_arith (ops : List Op) : Arith (gridGeo ieee 9 9) (rne 53) 9 9 ops :=
  arith_ieee ⟨by norm_num, by norm_num, by norm_num, by norm_num, by norm_num⟩ (by decide)

/-- With IEEE arithmetic `c95_ieee_partial` cannot be strengthened to equality: the fitness of these seven points, in general position, depends on their
order. -/
theorem c95_ieee_false : ((calculate noiseFun (newParallel 1 3) 0 sevenPoints []).bind fun x =>
    (calculate noiseFun (newParallel 1 3) 0 sevenPoints.reverse []).map fun y => decide (x.1 ≠ y.1)) = some true := by
  decide +kernel

/-- The assumptions of `c95_ieee_partial` hold of that example. -/
example : ∃ v v' s s', calculate noiseFun (newParallel 1 3) 0 sevenPoints [] = some (v, s) ∧
    calculate noiseFun (newParallel 1 3) 0 sevenPoints.reverse [] = some (v', s') ∧ v ≠ v' ∧ |v' - v| ≤ 1 / 100000000 := by
  have h := c95_ieee_false
  simp only [Option.bind_eq_some_iff, Option.map_eq_some_iff, decide_eq_true_eq] at h
  obtain ⟨⟨v, s⟩, h1, ⟨v', s'⟩, h2, h3⟩ := h
  refine ⟨v, v', s, s', h1, h2, h3, ?_⟩
  have u : ∀ p ∈ sevenPoints, Alg.Unit01 p := by
    intro p hp
    simp only [sevenPoints, List.mem_cons, List.not_mem_nil, or_false] at hp
    rcases hp with rfl | rfl | rfl | rfl | rfl | rfl | rfl <;> (unfold Alg.Unit01; norm_num)
  exact c95_ieee_partial noise_arith (by norm_num) (by norm_num) (by norm_num) (by decide) (by decide) u
    (fun p hp => u p (List.mem_reverse.mp hp)) (fun q => by unfold pix; simp only [List.map_reverse, List.mem_reverse]) seven_general h1 h2

/-- That function without rounding. -/
def plainFun : Fun D Tri :=
  triFun (gridGeo ⟨rne 53, rne 28, sqrt64⟩ 9 9) (fun x => x) 0 (ofBytes (fun x => x) 9 9 noisePx) 1 (fun _ _ => ⟨[], [], fun _ _ => [], fun _ => []⟩)

/-- The assumptions of `c95_exact_partial` hold, with a point repeated. -/
example : ∃ v s s', calculate plainFun (newParallel 1 3) 0 sevenPoints [] = some (v, s) ∧
    calculate plainFun (newParallel 1 3) 0 (⟨0, 0⟩ :: sevenPoints.reverse) [] = some (v, s') := by
  have e1 : (calculate plainFun (newParallel 1 3) 0 sevenPoints []).isSome = true := by decide +kernel
  have e2 : (calculate plainFun (newParallel 1 3) 0 (⟨0, 0⟩ :: sevenPoints.reverse) []).isSome = true := by decide +kernel
  obtain ⟨⟨v, s⟩, h1⟩ := Option.isSome_iff_exists.mp e1
  obtain ⟨⟨v', s'⟩, h2⟩ := Option.isSome_iff_exists.mp e2
  have e : pix (fun x => x) (ofBytes (fun x => x) 9 9 noisePx) sevenPoints = pix (rne 53) (ofBytes (rne 53) 9 9 noisePx) sevenPoints := by
    rw [seven_pix]; decide +kernel
  have u : ∀ p ∈ (⟨0, 0⟩ :: sevenPoints), Alg.Unit01 p := by
    intro p hp
    simp only [sevenPoints, List.mem_cons, List.not_mem_nil, or_false] at hp
    rcases hp with rfl | rfl | rfl | rfl | rfl | rfl | rfl | rfl <;> (unfold Alg.Unit01; norm_num)
  have := c95_exact_partial (I := ofBytes (fun x => x) 9 9 noisePx) (fun _ => rfl)
    (fun _ => arith_wide ⟨by norm_num [ofBytes], by norm_num [ofBytes], by norm_num [ofBytes], by norm_num [ofBytes], by norm_num [ofBytes]⟩)
    (ofBytes_ok (id_rnd 53) 9 9 _) (by norm_num) (by norm_num) (by decide) (by decide) (fun p hp => u p (List.mem_cons_of_mem _ hp))
    (fun p hp => u p (by simpa using hp))
    (fun q => by
      unfold pix
      simp only [List.map_cons, List.map_reverse, List.mem_cons, List.mem_reverse]
      refine ⟨Or.inr, ?_⟩
      rintro (rfl | h)
      · exact List.mem_map_of_mem (by simp [sevenPoints])
      · exact h)
    (by rw [e]; exact seven_general) h1 h2
  subst this
  exact ⟨v', s, s', h1, h2⟩

/-- The assumptions of `c40_ieee_partial` hold of the history of `tinyCalls`. -/
example : ∃ s v s' d v', calls tinyFun (newParallel 2 1) tinyCalls = some s ∧ calculate tinyFun s 1 tinyPoints tinyMut = some (v, s') ∧
    exec (gridGeo ieee 4 4) (rne 53) 4 4 ((pix (rne 53) (checker (rne 53) 4 4) tinyPoints).map .ins) = some d ∧
    evalTris (rne 53) 0 (checker (rne 53) 4 4) 1 (iterTriangles d) = some v' ∧ |v' - v| ≤ 1 / 100000000 := by
  have e0 : pix (rne 53) (checker (rne 53) 4 4) tinyPoints = [⟨0, 0⟩, ⟨4, 1⟩, ⟨0, 4⟩, ⟨3, 4⟩] := by decide +kernel
  refine c40_ieee_partial (fun _ => arith_ieee tiny_size (by decide)) (by norm_num) (by norm_num) (by norm_num)
    (N := 4) (by norm_num) (n := 2) (k := 1) (by norm_num) tiny_recorded (p := [false, true]) (by decide)
    (general_of (l := [⟨0, 0⟩, ⟨4, 1⟩, ⟨0, 4⟩, ⟨3, 4⟩, ⟨-6, -2⟩, ⟨2, 10⟩, ⟨10, -2⟩])
      (by
        rintro p (h | h)
        · change p ∈ pix (rne 53) (checker (rne 53) 4 4) tinyPoints at h
          rw [e0] at h
          simp only [List.mem_cons, List.not_mem_nil, or_false] at h ⊢
          tauto
        · have : newSuperTriangle 4 4 = ⟨⟨-6, -2⟩, ⟨2, 10⟩, ⟨10, -2⟩⟩ := by decide +kernel
          rw [this] at h
          unfold IsVertex at h
          simp only [List.mem_cons, List.not_mem_nil, or_false]
          tauto)
      (by decide +kernel))

section
open Verif.Vor hiding Sorter

/-- The polygon fitness of a 4 x 4 image with IEEE arithmetic. -/
def tinyPoly : Fun V (List Pt) := vorFun (gridGeo ieee 4 4) ieee goSort 0 (checker (rne 53) 4 4) 1 noVBufs

theorem tiny_unit : ∀ p ∈ tinyPoints, Alg.Unit01 p := by
  intro p hp
  simp only [tinyPoints, List.mem_cons, List.not_mem_nil, or_false] at hp
  rcases hp with rfl | rfl | rfl | rfl <;> (unfold Alg.Unit01; norm_num)

theorem tiny_varith (ops : List Op) : VArith (gridGeo ieee 4 4) ieee 4 4 ops := varith_ieee tiny_size (by decide)

theorem tiny_polys : ∃ d, vExec (gridGeo ieee 4 4) ieee goSort 4 4 ((pix (rne 53) (checker (rne 53) 4 4) tinyPoints).map .ins) = some d ∧
    PolysOK 4 4 0 ((iterPolygons d).map (roundPoly (rne 53))) := by
  have e2 : ((vExec (gridGeo ieee 4 4) ieee goSort 4 4 ((pix (rne 53) (checker (rne 53) 4 4) tinyPoints).map .ins)).map fun d =>
      (iterPolygons d).map (roundPoly (rne 53))) = some [[⟨0, 2⟩, ⟨0, 0⟩, ⟨2, 0⟩, ⟨2, 2⟩], [⟨2, 4⟩, ⟨2, 2⟩, ⟨4, 3⟩, ⟨4, 4⟩], [⟨2, 2⟩, ⟨2, 0⟩, ⟨4, 0⟩, ⟨4, 3⟩],
        [⟨0, 4⟩, ⟨0, 2⟩, ⟨2, 2⟩, ⟨2, 4⟩]] := by decide +kernel
  obtain ⟨d, e, hd⟩ := Option.map_eq_some_iff.mp e2
  refine ⟨d, e, ?_⟩
  rw [hd]
  exact ⟨by unfold PolyIn; decide, by simp only [iori_nondeg]; decide +kernel, by decide +kernel, by decide⟩

theorem tiny_clash : ∀ q ∈ pix (rne 53) (checker (rne 53) 4 4) tinyPoints, ¬ CellClash ieee 4 4 ↑(pix (rne 53) (checker (rne 53) 4 4) tinyPoints) q := by
  obtain ⟨⟨m, H⟩, -⟩ := vor_build (g := gridGeo ieee 4 4) (F := ieee) (vs := goSort) (z := 0) (I := checker (rne 53) 4 4) (bs := 1) (bf := noVBufs)
    (rne_rnd (by norm_num)) (ps := tinyPoints) (by decide) (by decide) (by decide) tiny_unit
  have key : ∀ pre ∈ ((pix (rne 53) (checker (rne 53) 4 4) tinyPoints).map Op.ins).inits,
      (exec (gridGeo ieee 4 4) (rne 53) 4 4 pre).any (clashFree (gridGeo ieee 4 4) ieee) = true := by decide +kernel
  intro q hq
  exact no_clash_of (tiny_varith ((pix (rne 53) (checker (rne 53) 4 4) tinyPoints).map .ins)) (fun pre hp => by have := key pre hp; rwa [Option.any_eq_true] at this)
    _ _ _ (List.prefix_refl _) H q hq

/-- The assumptions of `c77_ieee_partial` hold of the history of `tinyCalls`. -/
example : ∃ s v s' d v', calls tinyPoly (newParallel 2 1) tinyCalls = some s ∧ calculate tinyPoly s 1 tinyPoints tinyMut = some (v, s') ∧
    vExec (gridGeo ieee 4 4) ieee goSort 4 4 ((pix (rne 53) (checker (rne 53) 4 4) tinyPoints).map .ins) = some d ∧
    evalPolys (rne 53) 0 (checker (rne 53) 4 4) 1 (iterPolygons d) = some v' ∧ |v' - v| ≤ 1 / 100000000 := by
  have e1 : ((calls tinyPoly (newParallel 2 1) tinyCalls).bind fun s => calculate tinyPoly s 1 tinyPoints tinyMut).isSome = true := by decide +kernel
  obtain ⟨⟨v, s'⟩, e1⟩ := Option.isSome_iff_exists.mp e1
  obtain ⟨s, hs, hv⟩ := Option.bind_eq_some_iff.mp e1
  obtain ⟨d, e, K⟩ := tiny_polys
  obtain ⟨v', h1, h2⟩ := c77_ieee_partial tiny_varith goSort_ok (by norm_num) (by norm_num) (by norm_num) (N := 4) (by norm_num) (by norm_num) tiny_recorded
    (p := [false, true]) (by decide) hs hv tiny_clash e K
  exact ⟨s, v, s', d, v', hs, hv, e, h1, h2⟩

/-- The assumptions of `c95_polygons_ieee_partial` hold of these points in reverse order. -/
example : ∃ v v' s s', calculate tinyPoly (newParallel 1 3) 0 tinyPoints [] = some (v, s) ∧ calculate tinyPoly (newParallel 1 3) 0 tinyPoints.reverse [] = some (v', s') ∧
    |v' - v| ≤ 1 / 100000000 := by
  have e1 : (calculate tinyPoly (newParallel 1 3) 0 tinyPoints []).isSome = true := by decide +kernel
  have e2 : (calculate tinyPoly (newParallel 1 3) 0 tinyPoints.reverse []).isSome = true := by decide +kernel
  obtain ⟨⟨v, s⟩, h1⟩ := Option.isSome_iff_exists.mp e1
  obtain ⟨⟨v', s'⟩, h2⟩ := Option.isSome_iff_exists.mp e2
  obtain ⟨d, e, K⟩ := tiny_polys
  exact ⟨v, v', s, s', h1, h2, c95_polygons_ieee_partial tiny_varith goSort_ok (by norm_num) (by norm_num) (by norm_num) (by norm_num) (by norm_num) (by norm_num)
    (by norm_num) (by decide) (by decide) tiny_unit (fun p hp => tiny_unit p (List.mem_reverse.mp hp))
    (fun q => by unfold pix; simp only [List.map_reverse, List.mem_reverse]) tiny_clash e K h1 h2⟩

end

end Verif.Props

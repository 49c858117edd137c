import Verif.Props.Raster

/-! # C90: how much of the image the reported triangles cover -/

namespace Verif.Props

open Verif.Tri Verif.Spec Verif.Float Verif.Raster
open Verif.Incr hiding Entry

/-- Along each side of the `w` x `h` image the stored points, which include the corners, are at most `γ` apart. -/
structure Lined (w h : Nat) (s : Multiset Pt) (γ : ℚ) : Prop where
  bottom : ∀ u : ℚ, 0 ≤ u → u ≤ w → ∃ i j : Int, ⟨i, 0⟩ ∈ s ∧ ⟨j, 0⟩ ∈ s ∧ (i : ℚ) ≤ u ∧ u ≤ j ∧ (j : ℚ) - i ≤ γ
  top : ∀ u : ℚ, 0 ≤ u → u ≤ w → ∃ i j : Int, ⟨i, h⟩ ∈ s ∧ ⟨j, h⟩ ∈ s ∧ (i : ℚ) ≤ u ∧ u ≤ j ∧ (j : ℚ) - i ≤ γ
  left : ∀ u : ℚ, 0 ≤ u → u ≤ h → ∃ i j : Int, ⟨0, i⟩ ∈ s ∧ ⟨0, j⟩ ∈ s ∧ (i : ℚ) ≤ u ∧ u ≤ j ∧ (j : ℚ) - i ≤ γ
  right : ∀ u : ℚ, 0 ≤ u → u ≤ h → ∃ i j : Int, ⟨w, i⟩ ∈ s ∧ ⟨w, j⟩ ∈ s ∧ (i : ℚ) ≤ u ∧ u ≤ j ∧ (j : ℚ) - i ≤ γ

/-- A disc that reaches from `(zu, zv)` through the interval `[α, β]` of the line `v = 0` to `(Vu, -D)` without containing `α` or `β`. -/
theorem chord {m k R α β zu zv Vu D : ℚ} (hD : 0 < D) (hz : 0 ≤ zv) (h1 : (zu - m) ^ 2 + (zv - k) ^ 2 ≤ R) (h2 : (Vu - m) ^ 2 + (-D - k) ^ 2 ≤ R)
    (h3 : R ≤ (α - m) ^ 2 + k ^ 2) (h4 : R ≤ (β - m) ^ 2 + k ^ 2) (x1 : α * (zv + D) ≤ D * zu + zv * Vu) (x2 : D * zu + zv * Vu ≤ β * (zv + D)) :
    D * zv * (zv + D) + D * ((zu - α) * (zu - β)) + zv * ((Vu - α) * (Vu - β)) ≤ 0 := by
  have hN : 0 < zv + D := by linarith
  -- the power along the line, less that of the interval, is affine
  have lin : 0 ≤ (D * zu + zv * Vu) * (α + β - 2 * m) + (zv + D) * (m ^ 2 + k ^ 2 - R - α * β) := by
    rcases le_total 0 (α + β - 2 * m) with hc | hc
    · have a1 := mul_le_mul_of_nonneg_right x1 hc
      have a2 : 0 ≤ (zv + D) * ((α - m) ^ 2 + k ^ 2 - R) := mul_nonneg hN.le (by linarith)
      nlinarith
    · have a1 := mul_le_mul_of_nonpos_right x2 hc
      have a2 : 0 ≤ (zv + D) * ((β - m) ^ 2 + k ^ 2 - R) := mul_nonneg hN.le (by linarith)
      nlinarith
  have b1 := mul_nonneg hD.le (sub_nonneg.mpr h1)
  have b2 := mul_nonneg hz (sub_nonneg.mpr h2)
  nlinarith

theorem gap_sq {α β γ u : ℚ} (h : β - α ≤ γ) (h0 : α ≤ β) : -(γ ^ 2 / 4) ≤ (u - α) * (u - β) := by
  nlinarith [sq_nonneg (2 * u - α - β), mul_self_le_mul_self (sub_nonneg.mpr h0) h]

/-- Depth of the disc behind the interval. -/
theorem chord_depth {m k R α β γ zu zv Vu D : ℚ} (hD : 0 < D) (hz : 0 ≤ zv) (h1 : (zu - m) ^ 2 + (zv - k) ^ 2 ≤ R) (h2 : (Vu - m) ^ 2 + (-D - k) ^ 2 ≤ R)
    (h3 : R ≤ (α - m) ^ 2 + k ^ 2) (h4 : R ≤ (β - m) ^ 2 + k ^ 2) (x1 : α * (zv + D) ≤ D * zu + zv * Vu) (x2 : D * zu + zv * Vu ≤ β * (zv + D))
    (hγ : β - α ≤ γ) (h0 : α ≤ β) : 4 * (D * zv) ≤ γ ^ 2 := by
  have h := chord hD hz h1 h2 h3 h4 x1 x2
  have a := mul_le_mul_of_nonneg_left (gap_sq (u := zu) hγ h0) hD.le
  have b := mul_le_mul_of_nonneg_left (gap_sq (u := Vu) hγ h0) hz
  have : (zv + D) * (4 * (D * zv)) ≤ (zv + D) * γ ^ 2 := by nlinarith
  exact le_of_mul_le_mul_left this (by linarith)

/-- The same when the far end is at a distance `K` from the interval. -/
theorem chord_aside {m k R α β γ zu zv Vu D K : ℚ} (hD : 0 < D) (hz : 0 ≤ zv) (h1 : (zu - m) ^ 2 + (zv - k) ^ 2 ≤ R)
    (h2 : (Vu - m) ^ 2 + (-D - k) ^ 2 ≤ R) (h3 : R ≤ (α - m) ^ 2 + k ^ 2) (h4 : R ≤ (β - m) ^ 2 + k ^ 2) (x1 : α * (zv + D) ≤ D * zu + zv * Vu)
    (x2 : D * zu + zv * Vu ≤ β * (zv + D)) (hγ : β - α ≤ γ) (h0 : α ≤ β) (hK : 0 ≤ K) (far : Vu + K ≤ α ∨ β + K ≤ Vu) :
    4 * (zv * (D ^ 2 + K ^ 2)) ≤ D * γ ^ 2 := by
  have h := chord hD hz h1 h2 h3 h4 x1 x2
  have a := mul_le_mul_of_nonneg_left (gap_sq (u := zu) hγ h0) hD.le
  have b : K ^ 2 ≤ (Vu - α) * (Vu - β) := by
    rcases far with far | far
    · rw [← neg_mul_neg, sq]; exact mul_le_mul (by linarith) (by linarith) hK (by linarith)
    · rw [sq]; exact mul_le_mul (by linarith) (by linarith) hK (by linarith)
  have b' := mul_le_mul_of_nonneg_left b hz
  have c : 0 ≤ D * zv * zv := by positivity
  nlinarith

variable {g : Geo} {fl : ℚ → ℚ} {w h : Nat} {ops : List Op} {s : Multiset Pt} {m : Nat} {d : D}

set_option maxHeartbeats 1600000 in
/-- A location deep in the image is not in a triangle of a bounding vertex. -/
theorem deep (k : SizeOk w h) {γ : ℚ} (L : Lined w h s γ) (img : ∀ p ∈ s, InImg w h p) {o q : P2} {R : ℚ} {v : Pt} (hv : IsVertex (newSuperTriangle w h) v)
    (hq : (o.x - q.x) ^ 2 + (o.y - q.y) ^ 2 ≤ R) (hR : d2 o v = R) (emp : ∀ p ∈ s, R ≤ d2 o p)
    (x1 : 0 ≤ q.x) (x2 : q.x ≤ w) (y1 : 0 ≤ q.y) (y2 : q.y ≤ h) :
    (6 * (side w h : ℚ) - 2) * q.x ≤ γ ^ 2 ∨ (6 * (side w h : ℚ) - 2) * (w - q.x) ≤ γ ^ 2 ∨
    (6 * (side w h : ℚ) - 2) * q.y ≤ γ ^ 2 ∨ (6 * (side w h : ℚ) - 2) * (h - q.y) ≤ γ ^ 2 := by
  obtain ⟨s2, -, sw, sh, -⟩ := side_bounds k
  rw [super_eq k] at hv
  have ew : (w : ℚ) ≤ 2 * (((w + 1) / 2 : Nat) : ℚ) ∧ 2 * (((w + 1) / 2 : Nat) : ℚ) ≤ w + 1 := by
    constructor <;> exact_mod_cast (by omega)
  have eh : (h : ℚ) ≤ 2 * (((h + 1) / 2 : Nat) : ℚ) ∧ 2 * (((h + 1) / 2 : Nat) : ℚ) ≤ h + 1 := by
    constructor <;> exact_mod_cast (by omega)
  have s2' : (2 : ℚ) ≤ side w h := by exact_mod_cast s2
  have sw' : (w : ℚ) ≤ side w h := by exact_mod_cast sw
  have sh' : (h : ℚ) ≤ side w h := by exact_mod_cast sh
  have dep : (((h + 1) / 2 : Nat) : ℚ) + 1 ≤ side w h := by
    have : (h + 1) / 2 + 1 ≤ side w h := by omega
    exact_mod_cast this
  unfold d2 at hR emp
  generalize (((w + 1) / 2 : Nat)) = W at *
  generalize (((h + 1) / 2 : Nat)) = V at *
  generalize side w h = M at *
  have hh0 : (0 : ℚ) ≤ h := y1.trans y2
  have hw0 : (0 : ℚ) ≤ w := x1.trans x2
  have W0 : (0 : ℚ) ≤ W := by positivity
  have V0 : (0 : ℚ) ≤ V := by positivity
  have w1 : (1 : ℚ) ≤ w := by exact_mod_cast k.w1
  rcases hv with rfl | rfl | rfl <;> simp only at hR <;> push_cast at hR
  · have Dx : (0 : ℚ) < 2 * M - W := by linarith
    have Dy : (0 : ℚ) < M - V := by linarith
    rcases le_or_gt 0 ((2 * M - W) * q.y + q.x * ((V : ℚ) - M)) with hc | hc
    · obtain ⟨i, j, hi, hj, l1, l2, hg⟩ := L.left (((2 * M - W) * q.y + q.x * (V - M)) / (q.x + (2 * M - W))) (div_nonneg hc (by linarith))
        (by rw [div_le_iff₀ (by linarith)]; linarith [mul_le_mul_of_nonneg_left y2 Dx.le, mul_nonneg x1 Dy.le, mul_nonneg x1 hh0])
      rw [le_div_iff₀ (by linarith)] at l1
      rw [div_le_iff₀ (by linarith)] at l2
      have e1 := emp _ hi; have e2 := emp _ hj
      simp only at e1 e2; push_cast at e1 e2
      have := chord_depth (m := o.y) (k := o.x) (R := R) Dx x1 (by linarith) (by linarith) (by linarith) (by linarith) l1 l2 hg (le_of_mul_le_mul_right (l1.trans l2) (by linarith))
      left
      have c : (6 * (M : ℚ) - 2) * q.x ≤ 4 * (2 * M - W) * q.x := mul_le_mul_of_nonneg_right (by linarith) x1
      linarith
    · obtain ⟨i, j, hi, hj, l1, l2, hg⟩ := L.bottom (((M - V) * q.x + q.y * (W - 2 * M)) / (q.y + (M - V))) (div_nonneg (by linarith) (by linarith))
        (by rw [div_le_iff₀ (by linarith)]; linarith [mul_le_mul_of_nonneg_left x2 Dy.le, mul_nonneg y1 Dx.le, mul_nonneg y1 hw0])
      rw [le_div_iff₀ (by linarith)] at l1
      rw [div_le_iff₀ (by linarith)] at l2
      have e1 := emp _ hi; have e2 := emp _ hj
      simp only at e1 e2; push_cast at e1 e2
      have i0 : (0 : ℚ) ≤ i := by exact_mod_cast (img _ hi).x1
      have := chord_aside (m := o.x) (k := o.y) (R := R) (K := 2 * M - W) Dy y1 (by linarith) (by linarith) (by linarith) (by linarith) l1 l2 hg
        (le_of_mul_le_mul_right (l1.trans l2) (by linarith)) Dx.le (Or.inl (by linarith))
      have c1 : (6 * (M : ℚ) - 2) * (M - V) ≤ 4 * (2 * M - W) * (2 * M - W) := mul_le_mul (by linarith) (by linarith) Dy.le (by linarith)
      have c2 := mul_le_mul_of_nonneg_left c1 y1
      right; right; left
      have : (M - V) * ((6 * (M : ℚ) - 2) * q.y) ≤ (M - V) * γ ^ 2 := by linarith [mul_nonneg y1 (sq_nonneg ((M : ℚ) - V))]
      exact le_of_mul_le_mul_left this Dy
  · have Dy : (0 : ℚ) < V + 2 * M - h := by linarith
    have y3 : 0 ≤ h - q.y := by linarith
    obtain ⟨i, j, hi, hj, l1, l2, hg⟩ := L.top (((V + 2 * M - h) * q.x + (h - q.y) * W) / ((h - q.y) + (V + 2 * M - h)))
      (div_nonneg (by positivity) (by linarith)) (by
        rw [div_le_iff₀ (by linarith)]
        have : (W : ℚ) ≤ w := by linarith
        linarith [mul_le_mul_of_nonneg_left this y3, mul_le_mul_of_nonneg_left x2 Dy.le])
    rw [le_div_iff₀ (by linarith)] at l1
    rw [div_le_iff₀ (by linarith)] at l2
    have e1 := emp _ hi; have e2 := emp _ hj
    simp only at e1 e2; push_cast at e1 e2
    have := chord_depth (m := o.x) (k := h - o.y) (R := R) Dy y3 (by linarith) (by linarith) (by linarith) (by linarith) l1 l2 hg
      (le_of_mul_le_mul_right (l1.trans l2) (by linarith))
    right; right; right
    have c : (6 * (M : ℚ) - 2) * (h - q.y) ≤ 4 * (V + 2 * M - h) * (h - q.y) := mul_le_mul_of_nonneg_right (by linarith) y3
    linarith
  · have Dx : (0 : ℚ) < W + 2 * M - w := by linarith
    have Dy : (0 : ℚ) < M - V := by linarith
    have x3 : 0 ≤ w - q.x := by linarith
    rcases le_or_gt 0 ((W + 2 * M - w) * q.y + (w - q.x) * ((V : ℚ) - M)) with hc | hc
    · obtain ⟨i, j, hi, hj, l1, l2, hg⟩ := L.right (((W + 2 * M - w) * q.y + (w - q.x) * (V - M)) / ((w - q.x) + (W + 2 * M - w)))
        (div_nonneg hc (by linarith)) (by
          rw [div_le_iff₀ (by linarith)]; linarith [mul_le_mul_of_nonneg_left y2 Dx.le, mul_nonneg x3 Dy.le, mul_nonneg x3 hh0])
      rw [le_div_iff₀ (by linarith)] at l1
      rw [div_le_iff₀ (by linarith)] at l2
      have e1 := emp _ hi; have e2 := emp _ hj
      simp only at e1 e2; push_cast at e1 e2
      have := chord_depth (m := o.y) (k := w - o.x) (R := R) Dx x3 (by linarith) (by linarith) (by linarith) (by linarith) l1 l2 hg
        (le_of_mul_le_mul_right (l1.trans l2) (by linarith))
      right; left
      have c : (6 * (M : ℚ) - 2) * (w - q.x) ≤ 4 * (W + 2 * M - w) * (w - q.x) := mul_le_mul_of_nonneg_right (by linarith) x3
      linarith
    · obtain ⟨i, j, hi, hj, l1, l2, hg⟩ := L.bottom (((M - V) * q.x + q.y * (W + 2 * M)) / (q.y + (M - V))) (div_nonneg (by positivity) (by linarith))
        (by rw [div_le_iff₀ (by linarith)]; linarith)
      rw [le_div_iff₀ (by linarith)] at l1
      rw [div_le_iff₀ (by linarith)] at l2
      have e1 := emp _ hi; have e2 := emp _ hj
      simp only at e1 e2; push_cast at e1 e2
      have j0 : (j : ℚ) ≤ w := by exact_mod_cast (img _ hj).x2
      have := chord_aside (m := o.x) (k := o.y) (R := R) (K := W + 2 * M - w) Dy y1 (by linarith) (by linarith) (by linarith) (by linarith) l1 l2 hg
        (le_of_mul_le_mul_right (l1.trans l2) (by linarith)) Dx.le (Or.inr (by linarith))
      have c1 : (6 * (M : ℚ) - 2) * (M - V) ≤ 4 * (W + 2 * M - w) * (W + 2 * M - w) := mul_le_mul (by linarith) (by linarith) Dy.le (by linarith)
      have c2 := mul_le_mul_of_nonneg_left c1 y1
      right; right; left
      have : (M - V) * ((6 * (M : ℚ) - 2) * q.y) ≤ (M - V) * γ ^ 2 := by linarith [mul_nonneg y1 (sq_nonneg ((M : ℚ) - V))]
      exact le_of_mul_le_mul_left this Dy

/-- Farther from each side than `γ² / (6 n - 2)`. -/
def Deep (w h : Nat) (γ : ℚ) (q : P2) : Prop :=
  γ ^ 2 < (6 * (side w h : ℚ) - 2) * q.x ∧ γ ^ 2 < (6 * (side w h : ℚ) - 2) * (w - q.x) ∧
  γ ^ 2 < (6 * (side w h : ℚ) - 2) * q.y ∧ γ ^ 2 < (6 * (side w h : ℚ) - 2) * (h - q.y)

theorem Deep.inside (k : SizeOk w h) {γ : ℚ} {q : P2} (D : Deep w h γ q) : 0 ≤ q.x ∧ q.x ≤ w ∧ 0 ≤ q.y ∧ q.y ≤ h := by
  obtain ⟨x1, x2, y1, y2⟩ := D
  have pos : ∀ x : ℚ, γ ^ 2 < (6 * (side w h : ℚ) - 2) * x → 0 ≤ x := by
    intro x hx
    have s2 : (2 : ℚ) ≤ side w h := by exact_mod_cast (side_bounds k).1
    exact (pos_of_mul_pos_right ((sq_nonneg γ).trans_lt hx) (by linarith)).le
  have px := pos _ x1; have px' := pos _ x2; have py := pos _ y1; have py' := pos _ y2
  exact ⟨px, by linarith, py, by linarith⟩

/-- A triangle with a deep location is reported. -/
theorem deep_reported (A : Arith g fl w h ops) (H : Hist w h ops s m) (e : exec g fl w h ops = some d) {γ : ℚ} (L : Lined w h s γ) {q : P2}
    (D : Deep w h γ q) {t : Tri} (ht : t ∈ live d) (hp : (norm t).pow q ≤ 0) : t ∈ iterTriangles d := by
  have I := (A.inv H e).1
  have nd := I.nondeg ht
  obtain ⟨px, px', py, py'⟩ := D.inside A.size
  obtain ⟨x1, x2, y1, y2⟩ := D
  refine (I.iter_iff A.size t).mpr ⟨ht, ?_⟩
  obtain ⟨o, ho⟩ := centre_exists nd
  rw [pow_centre nd ho] at hp
  have key : ∀ v, IsVertex t v → d2 o v = d2 o t.a → v ∈ s := by
    intro v hv hd
    refine ((I.vertex_iff v).mp ⟨t, ht, hv⟩).resolve_right fun hs => ?_
    have emp : ∀ p ∈ s, d2 o t.a ≤ d2 o p := fun p hp => not_lt.mp fun hlt => c01_empty_circles_partial A H e t ht p hp ⟨o, ho, hlt⟩
    rcases deep A.size L I.img hs (by linarith) hd emp px px' py py' with h | h | h | h
    · exact absurd x1 (not_lt.mpr h)
    · exact absurd x2 (not_lt.mpr h)
    · exact absurd y1 (not_lt.mpr h)
    · exact absurd y2 (not_lt.mpr h)
  exact ⟨key _ (Or.inl rfl) rfl, key _ (Or.inr (Or.inl rfl)) ho.1.symm, key _ (Or.inr (Or.inr rfl)) ho.2.symm⟩

/-- **C90** (partial: under `Arith`): if the stored points along the border are at most `γ` apart, every location of the image farther from the border than
`γ² / (6 max(w, h) - 2)` is in exactly one reported triangle. -/
theorem c90_cover_partial (A : Arith g fl w h ops) (H : Hist w h ops s m) (e : exec g fl w h ops = some d) {γ : ℚ} (L : Lined w h s γ) {q : P2}
    (D : Deep w h γ q) : ∃! t, t ∈ iterTriangles d ∧ Owns t q := by
  have I := (A.inv H e).1
  obtain ⟨px, px', py, py'⟩ := D.inside A.size
  obtain ⟨t, ⟨ht, hq⟩, uniq⟩ := c03_image_partial A H e q px px' py py'
  exact ⟨t, ⟨deep_reported A H e L D ht (I.inv.half_pow (List.mem_map_of_mem ht) ((owns_iff (I.nondeg ht) q).mp hq)).1, hq⟩,
    fun t' ⟨h1, h2⟩ => uniq t' ⟨((I.iter_iff A.size t').mp h1).1, h2⟩⟩

theorem closed_norm_nonneg {t : Tri} (hn : NonDegenerate t) {q : P2} (hc : Closed t q) :
    0 ≤ ori (norm t).a (norm t).b q ∧ 0 ≤ ori (norm t).b (norm t).c q ∧ 0 ≤ ori (norm t).c (norm t).a q := by
  have hs := area2_sum t q
  unfold NonDegenerate at hn
  unfold norm
  rw [loc_toP] at hs hn
  by_cases hp : 0 < ori (toP t.a) (toP t.b) (toP t.c)
  · rw [if_pos hp]
    simp only
    rw [← area2_ori] at hp
    rw [← area2_ori, ← area2_ori, ← area2_ori]
    rcases hc with k | ⟨k1, k2, k3⟩
    · exact k
    · exfalso; linarith
  · rw [if_neg hp]
    simp only
    rw [← area2_ori] at hp
    rw [area2_neg t.a t.b, area2_neg t.c t.a, area2_neg t.b t.c]
    rcases hc with ⟨k1, k2, k3⟩ | ⟨k1, k2, k3⟩
    · exact absurd (le_antisymm (not_lt.mp hp) (by linarith)) hn
    · exact ⟨by linarith, by linarith, by linarith⟩

/-- **C90** (partial: under `Arith`), pixels: a pixel whose lattice point is that far from the border is visited exactly once when the reported triangles are
rasterized, in any arithmetic rounding to 53 bits. -/
theorem c90_pixels_partial {fs : ℚ → ℚ} (A : Arith g fs w h ops) (H : Hist w h ops s m) (e : exec g fs w h ops = some d) {γ : ℚ} (L : Lined w h s γ)
    (R : Rnd 53 fl) (z : ℚ) {x y : Int} (hp : IsPixel w h (x, y)) (D : Deep w h γ ⟨x + 1, y⟩) : visits fl z (iterTriangles d) (x, y) = 1 := by
  have I := (A.inv H e).1
  have hm : Monotone fl := fun a b => R.mono a b
  have h1 := (c30_triangulation_partial A H e R z (x, y)).2 hp
  refine le_antisymm (c30_iter_partial A H e R z (x, y)) ?_
  rw [visits_vis hm] at h1 ⊢
  obtain ⟨v, hv, hpos⟩ : ∃ v ∈ (live d).map fun t => vis fl t x y, 0 < v := by
    by_contra hcon
    push Not at hcon
    rw [List.sum_eq_zero (fun v hv => Nat.le_zero.mp (hcon v hv))] at h1
    cases h1
  obtain ⟨t, ht, rfl⟩ := List.mem_map.mp hv
  have sm := live_small A H e t ht
  have hc := vis_closed R (I.nondeg ht) ⟨Or.inl hp.1, sm.1⟩ ⟨Or.inl hp.1, sm.2.1⟩ ⟨Or.inl hp.1, sm.2.2⟩ hpos.ne'
  obtain ⟨c1, c2, c3⟩ := closed_norm_nonneg (I.nondeg ht) hc
  have e1 : corner x y = ⟨x + 1, y⟩ := by unfold corner; push_cast; rfl
  rw [← e1] at D
  have hr := deep_reported A H e L D ht ((norm t).pow_closed (I.inv.ccw _ (List.mem_map_of_mem ht)) _ c1 c2 c3).1
  exact hpos.trans_le (List.single_le_sum (by simp) _ (List.mem_map_of_mem hr))

/-- The four corners of the image. -/
def corners (w h : Nat) : List Pt := [⟨0, 0⟩, ⟨w, 0⟩, ⟨0, h⟩, ⟨w, h⟩]

theorem lined_corners (hc : ∀ p ∈ corners w h, p ∈ s) : Lined w h s (side w h) := by
  simp only [corners, List.mem_cons, List.not_mem_nil, or_false, forall_eq_or_imp, forall_eq] at hc
  obtain ⟨c1, c2, c3, c4⟩ := hc
  have sw : (w : ℚ) ≤ side w h := by exact_mod_cast le_max_left w h
  have sh : (h : ℚ) ≤ side w h := by exact_mod_cast le_max_right w h
  exact ⟨fun u a b => ⟨0, w, c1, c2, by simpa using a, by simpa using b, by simpa using sw⟩,
    fun u a b => ⟨0, w, c3, c4, by simpa using a, by simpa using b, by simpa using sw⟩,
    fun u a b => ⟨0, h, c1, c3, by simpa using a, by simpa using b, by simpa using sh⟩,
    fun u a b => ⟨0, h, c2, c4, by simpa using a, by simpa using b, by simpa using sh⟩⟩

/-- **C90** (partial: under `Arith`), for the four corners: with them stored, whatever else is stored, a location is in exactly one reported triangle if it is
farther from the border than `n² / (6 n - 2)`, about a sixth of the longer side `n`. -/
theorem c90_corners_partial (A : Arith g fl w h ops) (H : Hist w h ops s m) (e : exec g fl w h ops = some d) (hc : ∀ p ∈ corners w h, p ∈ s) {b : ℚ}
    (hb : (side w h : ℚ) ^ 2 ≤ (6 * (side w h : ℚ) - 2) * b) (q : P2) (x1 : b < q.x) (x2 : q.x < w - b) (y1 : b < q.y) (y2 : q.y < h - b) :
    ∃! t, t ∈ iterTriangles d ∧ Owns t q := by
  have s2 : (2 : ℚ) ≤ side w h := by exact_mod_cast (side_bounds A.size).1
  have p : (0 : ℚ) < 6 * (side w h : ℚ) - 2 := by linarith
  exact c90_cover_partial A H e (lined_corners hc) ⟨hb.trans_lt (mul_lt_mul_of_pos_left x1 p),
    hb.trans_lt (mul_lt_mul_of_pos_left (by linarith) p), hb.trans_lt (mul_lt_mul_of_pos_left y1 p),
    hb.trans_lt (mul_lt_mul_of_pos_left (by linarith) p)⟩

/-- Four corners and a point near the upper border of a 100 x 100 image. -/
def rimOps : List Op := [.ins ⟨0, 0⟩, .ins ⟨100, 0⟩, .ins ⟨0, 100⟩, .ins ⟨100, 100⟩, .ins ⟨50, 84⟩]

def rimBag : Multiset Pt := {⟨50, 84⟩, ⟨100, 100⟩, ⟨0, 100⟩, ⟨100, 0⟩, ⟨0, 0⟩}

theorem rim_size : SizeOk 100 100 := ⟨by norm_num, by norm_num, by norm_num, by norm_num, by norm_num⟩

theorem rim_hist : Hist 100 100 rimOps rimBag 5 := by
  have h1 := Hist.nil (w := 100) (h := 100)
  have h2 := h1.ins ⟨0, 0⟩ ⟨by norm_num, by norm_num, by norm_num, by norm_num⟩ (by decide) (by decide)
  have h3 := h2.ins ⟨100, 0⟩ ⟨by norm_num, by norm_num, by norm_num, by norm_num⟩ (by decide) (by decide)
  have h4 := h3.ins ⟨0, 100⟩ ⟨by norm_num, by norm_num, by norm_num, by norm_num⟩ (by decide) (by decide)
  have h5 := h4.ins ⟨100, 100⟩ ⟨by norm_num, by norm_num, by norm_num, by norm_num⟩ (by decide) (by decide)
  exact h5.ins ⟨50, 84⟩ ⟨by norm_num, by norm_num, by norm_num, by norm_num⟩ (by decide) (by decide)

theorem rim_exec : ∃ d, exec (gridGeo ieee 100 100) (rne 53) 100 100 rimOps = some d ∧
    iterTriangles d = [⟨⟨100, 0⟩, ⟨100, 100⟩, ⟨50, 84⟩⟩, ⟨⟨0, 0⟩, ⟨0, 100⟩, ⟨50, 84⟩⟩, ⟨⟨0, 0⟩, ⟨100, 0⟩, ⟨50, 84⟩⟩] := by
  have h : (exec (gridGeo ieee 100 100) (rne 53) 100 100 rimOps).map iterTriangles =
      some [⟨⟨100, 0⟩, ⟨100, 100⟩, ⟨50, 84⟩⟩, ⟨⟨0, 0⟩, ⟨0, 100⟩, ⟨50, 84⟩⟩, ⟨⟨0, 0⟩, ⟨100, 0⟩, ⟨50, 84⟩⟩] := by decide +kernel
  exact Option.map_eq_some_iff.mp h

/-- The inner part of this image is covered. -/
example : ∃ d, exec (gridGeo ieee 100 100) (rne 53) 100 100 rimOps = some d ∧
    ∀ q : P2, 17 < q.x → q.x < 83 → 17 < q.y → q.y < 83 → ∃! t, t ∈ iterTriangles d ∧ Owns t q := by
  obtain ⟨d, e, -⟩ := rim_exec
  refine ⟨d, e, fun q x1 x2 y1 y2 => c90_corners_partial (arith_ieee rim_size (by decide)) rim_hist e (by decide) (b := 17) ?_ q x1 ?_ y1 ?_⟩
  · unfold side; norm_num
  · push_cast; linarith
  · push_cast; linarith

/-- The gaps between stored border points are the sides of the image here. -/
example : ∃ d, exec (gridGeo ieee 100 100) (rne 53) 100 100 rimOps = some d ∧ ∃! t, t ∈ iterTriangles d ∧ Owns t ⟨50, 30⟩ := by
  obtain ⟨d, e, -⟩ := rim_exec
  refine ⟨d, e, c90_cover_partial (arith_ieee rim_size (by decide)) rim_hist e (lined_corners (by decide)) ?_⟩
  refine ⟨?_, ?_, ?_, ?_⟩ <;> unfold side <;> norm_num

/-- Its inner pixels are drawn once by the IEEE rasterizer. -/
example : ∃ d, exec (gridGeo ieee 100 100) (rne 53) 100 100 rimOps = some d ∧ ∀ x y : Int, 17 ≤ x → x ≤ 81 → 17 ≤ y → y ≤ 83 →
    visits (rne 53) 0 (iterTriangles d) (x, y) = 1 := by
  obtain ⟨d, e, -⟩ := rim_exec
  refine ⟨d, e, fun x y x1 x2 y1 y2 => c90_pixels_partial (arith_ieee rim_size (by decide)) rim_hist e (lined_corners (by decide))
    (rne_rnd (by norm_num)) 0 ⟨by simp only; omega, by simp only; omega, by simp only; omega, by simp only; omega⟩ ?_⟩
  have a1 : (17 : ℚ) ≤ x := by exact_mod_cast x1
  have a2 : (x : ℚ) ≤ 81 := by exact_mod_cast x2
  have b1 : (17 : ℚ) ≤ y := by exact_mod_cast y1
  have b2 : (y : ℚ) ≤ 83 := by exact_mod_cast y2
  refine ⟨?_, ?_, ?_, ?_⟩ <;> unfold side <;> norm_num <;> linarith

/-- **C90**: that the triangles cover the image once the corners are stored is false of the code: a point near the border connects to a vertex of the bounding
triangle instead of the border, and everything between it and the border is left out; here up to a depth of 16 of 100. -/
theorem c90_full_false : ∃ d, exec (gridGeo ieee 100 100) (rne 53) 100 100 rimOps = some d ∧ (∀ p ∈ corners 100 100, p ∈ rimBag) ∧
    Hist 100 100 rimOps rimBag 5 ∧ ∀ y : ℚ, 84 < y → ∀ t ∈ iterTriangles d, ¬ Closed t ⟨50, y⟩ := by
  obtain ⟨d, e, ht⟩ := rim_exec
  refine ⟨d, e, by decide, rim_hist, fun y hy t h => ?_⟩
  rw [ht] at h
  simp only [List.mem_cons, List.not_mem_nil, or_false] at h
  rcases h with rfl | rfl | rfl <;> unfold Closed area2 <;> norm_num <;> (try constructor) <;> intros <;> linarith

end Verif.Props

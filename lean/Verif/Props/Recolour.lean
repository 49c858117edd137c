import Verif.Props.PolyPicture

/-!
# Recolouring the image (C94)
-/

namespace Verif.Props

open Verif.Tri Verif.Spec Verif.Float Verif.Raster Verif.Fit Verif.Small Verif.Alg
open Verif.Incr hiding trunc step run Entry

/-- Exchange of the red and green, or the green and blue channel, and the negative of the red channel.  Every order of the channels, and the negative of
every choice of them, is a composition of these. -/
inductive Recolour where
  | swapRG
  | swapGB
  | negR
deriving DecidableEq

/-- The effect on three bytes. -/
def Recolour.bytes : Recolour → Fin 256 × Fin 256 × Fin 256 → Fin 256 × Fin 256 × Fin 256
  | .swapRG, (r, g, b) => (g, r, b)
  | .swapGB, (r, g, b) => (r, b, g)
  | .negR, (r, g, b) => (255 - r, g, b)

/-- The effect on a colour with channels between 0 and 1. -/
def Recolour.rgb : Recolour → RGB → RGB
  | .swapRG, c => ⟨c.g, c.r, c.b⟩
  | .swapGB, c => ⟨c.r, c.b, c.g⟩
  | .negR, c => ⟨1 - c.r, c.g, c.b⟩

/-- A composition, on bytes. -/
def bytesOf (ρ : List Recolour) (k : Fin 256 × Fin 256 × Fin 256) : Fin 256 × Fin 256 × Fin 256 := ρ.foldl (fun k g => g.bytes k) k

/-- A composition, on colours. -/
def rgbOf (ρ : List Recolour) (c : RGB) : RGB := ρ.foldl (fun c g => g.rgb c) c

theorem rgb_dist (g : Recolour) (a b : RGB) : rgbDist (g.rgb a) (g.rgb b) = rgbDist a b := by
  cases g <;> simp only [Recolour.rgb, rgbDist] <;> ring

theorem rgbOf_dist : ∀ (ρ : List Recolour) (a b : RGB), rgbDist (rgbOf ρ a) (rgbOf ρ b) = rgbDist a b
  | [], _, _ => rfl
  | g :: ρ, a, b => (rgbOf_dist ρ (g.rgb a) (g.rgb b)).trans (rgb_dist g a b)

theorem bytes_bytes (g : Recolour) (k : Fin 256 × Fin 256 × Fin 256) : g.bytes (g.bytes k) = k := by
  obtain ⟨r, g', b⟩ := k
  have : ∀ r : Fin 256, 255 - (255 - r) = r := by decide +kernel
  cases g <;> simp [Recolour.bytes, this]

theorem bytesOf_reverse : ∀ (ρ : List Recolour) (k : Fin 256 × Fin 256 × Fin 256), bytesOf ρ.reverse (bytesOf ρ k) = k
  | [], _ => rfl
  | g :: ρ, k => by
    have h := bytesOf_reverse ρ (g.bytes k)
    unfold bytesOf at h ⊢
    rw [List.reverse_cons, List.foldl_append, List.foldl_cons (l := ρ), h]
    exact bytes_bytes g k

/-- The colour of three bytes. -/
def colourOf (fl : ℚ → ℚ) (k : Fin 256 × Fin 256 × Fin 256) : RGB := ⟨convertColor fl k.1, convertColor fl k.2.1, convertColor fl k.2.2⟩

theorem colour_exact (g : Recolour) (k : Fin 256 × Fin 256 × Fin 256) : colourOf id (g.bytes k) = g.rgb (colourOf id k) := by
  obtain ⟨r, g', b⟩ := k
  cases g <;> simp only [Recolour.bytes, Recolour.rgb, colourOf, convertColor, id_eq, RGB.mk.injEq, and_true]
  have : ((255 - r : Fin 256) : ℕ) = 255 - (r : ℕ) := by
    have := r.2
    rw [Fin.sub_def]
    simp only
    omega
  rw [this, Nat.cast_sub (by have := r.2; omega)]
  push_cast
  ring

theorem colourOf_exact : ∀ (ρ : List Recolour) (k : Fin 256 × Fin 256 × Fin 256), colourOf id (bytesOf ρ k) = rgbOf ρ (colourOf id k)
  | [], _ => rfl
  | g :: ρ, k => by
    have h := colourOf_exact ρ (g.bytes k)
    rw [colour_exact] at h
    exact h

/-- The error of a recoloured picture of the recoloured image. -/
theorem err_recolour {α : Type} (ρ : List Recolour) (w h : Nat)
    (f : Nat → Nat → Fin 256 × Fin 256 × Fin 256) (cov : α → Int × Int → Prop) (T : List α) (cs : List RGB) :
    pictureErr (ofBytes id w h fun x y => bytesOf ρ (f x y)) cov (T.zip (cs.map (rgbOf ρ))) = pictureErr (ofBytes id w h f) cov (T.zip cs) := by
  unfold pictureErr
  refine Finset.sum_congr rfl fun x _ => Finset.sum_congr rfl fun y _ => ?_
  have e1 : shade cov (T.zip (cs.map (rgbOf ρ))) (x, y) = (shade cov (T.zip cs) (x, y)).map (rgbOf ρ) := by
    unfold shade
    rw [List.zip_map_right, List.find?_map, Option.map_map, Option.map_map]
    rfl
  rw [e1]
  cases shade cov (T.zip cs) (x, y) with
  | none => rfl
  | some c =>
    show rgbDist (colourOf id (bytesOf ρ (f x y))) (rgbOf ρ c) = rgbDist (colourOf id (f x y)) c
    rw [colourOf_exact, rgbOf_dist]

theorem dist_le (x y z : RGB) : rgbDist x z ≤ (1 + 1 / 2 ^ 20) * rgbDist y z + (1 + 2 ^ 20) * rgbDist x y := by
  have key : ∀ a b c : ℚ, (a - c) ^ 2 ≤ (1 + 1 / 2 ^ 20) * (b - c) ^ 2 + (1 + 2 ^ 20) * (a - b) ^ 2 := by
    intro a b c
    have := sq_nonneg ((b - c) / 2 ^ 10 - 2 ^ 10 * (a - b))
    have e : ((b - c) / 2 ^ 10 - 2 ^ 10 * (a - b)) ^ 2 = 1 / 2 ^ 20 * (b - c) ^ 2 + 2 ^ 20 * (a - b) ^ 2 - 2 * (b - c) * (a - b) := by ring
    rw [e] at this
    have e2 : (a - c) ^ 2 = (b - c) ^ 2 + 2 * (b - c) * (a - b) + (a - b) ^ 2 := by ring
    rw [e2]
    linarith
  have k1 := key x.r y.r z.r
  have k2 := key x.g y.g z.g
  have k3 := key x.b y.b z.b
  unfold rgbDist
  linarith

theorem colour_near (k : Fin 256 × Fin 256 × Fin 256) : rgbDist (colourOf (rne 53) k) (colourOf id k) ≤ 3 / 2 ^ 106 := by
  have R : Rnd 53 (rne 53) := rne_rnd (by norm_num)
  have one : ∀ k : Fin 256, (convertColor (rne 53) k - convertColor id k) ^ 2 ≤ 1 / 2 ^ 106 := by
    intro k
    have hk : ((k : Nat) : ℚ) ≤ 255 := by exact_mod_cast Nat.le_of_lt_succ k.isLt
    have e' : |convertColor (rne 53) k - convertColor id k| ≤ 1 / 2 ^ 53 := by
      refine le_trans (R.err (((k : ℕ) : ℚ) / 255)) ?_
      rw [abs_of_nonneg (by positivity)]
      exact div_le_div_of_nonneg_right (by rw [div_le_one (by norm_num)]; exact hk) (by positivity)
    rw [← sq_abs]
    have := pow_le_pow_left₀ (abs_nonneg _) e' 2
    refine this.trans (by norm_num)
  have := one k.1
  have := one k.2.1
  have := one k.2.2
  unfold rgbDist colourOf
  simp only
  linarith

theorem colour_recolour (ρ : List Recolour) (k : Fin 256 × Fin 256 × Fin 256) :
    rgbDist (colourOf (rne 53) (bytesOf ρ k)) (rgbOf ρ (colourOf (rne 53) k)) ≤ 12 / 2 ^ 106 := by
  have h1 := colour_near (bytesOf ρ k)
  have h2 := colour_near k
  rw [← rgbOf_dist ρ, ← colourOf_exact] at h2
  generalize colourOf (rne 53) (bytesOf ρ k) = x at *
  generalize rgbOf ρ (colourOf (rne 53) k) = y at *
  generalize colourOf id (bytesOf ρ k) = c at *
  have key : ∀ a b c : ℚ, (a - b) ^ 2 ≤ 2 * (a - c) ^ 2 + 2 * (b - c) ^ 2 := by
    intro a b c
    have := sq_nonneg ((a - c) + (b - c))
    have e : ((a - c) + (b - c)) ^ 2 = 2 * (a - c) ^ 2 + 2 * (b - c) ^ 2 - (a - b) ^ 2 := by ring
    linarith
  have k1 := key x.r y.r c.r
  have k2 := key x.g y.g c.g
  have k3 := key x.b y.b c.b
  unfold rgbDist at *
  linarith

/-- The error of a recoloured picture of the recoloured image, with rounded colours. -/
theorem err_recolour_le {α : Type} (ρ : List Recolour) (w h : Nat) (f : Nat → Nat → Fin 256 × Fin 256 × Fin 256) (cov : α → Int × Int → Prop) (T : List α)
    (cs : List RGB) : pictureErr (ofBytes (rne 53) w h fun x y => bytesOf ρ (f x y)) cov (T.zip (cs.map (rgbOf ρ))) ≤
      (1 + 1 / 2 ^ 20) * pictureErr (ofBytes (rne 53) w h f) cov (T.zip cs) + w * h * (1 / 2 ^ 80) := by
  have e : (w : ℚ) * h * (1 / 2 ^ 80) = ∑ x ∈ Finset.range w, ∑ y ∈ Finset.range h, 1 / 2 ^ 80 := by
    simp only [Finset.sum_const, Finset.card_range, nsmul_eq_mul]; ring
  rw [e]
  unfold pictureErr
  rw [Finset.mul_sum]
  show (∑ x ∈ Finset.range w, _) ≤ (∑ x ∈ Finset.range w, _) + _
  rw [← Finset.sum_add_distrib]
  refine Finset.sum_le_sum fun x _ => ?_
  rw [Finset.mul_sum]
  show (∑ y ∈ Finset.range h, _) ≤ (∑ y ∈ Finset.range h, _) + _
  rw [← Finset.sum_add_distrib]
  refine Finset.sum_le_sum fun y _ => ?_
  have e1 : shade cov (T.zip (cs.map (rgbOf ρ))) (x, y) = (shade cov (T.zip cs) (x, y)).map (rgbOf ρ) := by
    unfold shade
    rw [List.zip_map_right, List.find?_map, Option.map_map, Option.map_map]
    rfl
  rw [e1]
  cases shade cov (T.zip cs) (x, y) with
  | none => simp
  | some c =>
    show rgbDist (colourOf (rne 53) (bytesOf ρ (f x y))) (rgbOf ρ c) ≤ (1 + 1 / 2 ^ 20) * rgbDist (colourOf (rne 53) (f x y)) c + 1 / 2 ^ 80
    have h1 := dist_le (colourOf (rne 53) (bytesOf ρ (f x y))) (rgbOf ρ (colourOf (rne 53) (f x y))) (rgbOf ρ c)
    rw [rgbOf_dist] at h1
    have h2 := colour_recolour ρ (f x y)
    norm_num at h1 h2 ⊢
    linarith

theorem black_le {α : Type} (w h : Nat) (f : Nat → Nat → Fin 256 × Fin 256 × Fin 256) (cov : α → Int × Int → Prop) (T : List α) (n : Nat) :
    pictureErr (ofBytes (rne 53) w h f) cov (T.zip (List.replicate n ⟨0, 0, 0⟩)) ≤ 3 * (w * h) := by
  have R : Rnd 53 (rne 53) := rne_rnd (by norm_num)
  have e : 3 * ((w : ℚ) * h) = ∑ x ∈ Finset.range w, ∑ y ∈ Finset.range h, 3 := by
    simp only [Finset.sum_const, Finset.card_range, nsmul_eq_mul]; ring
  rw [e]
  unfold pictureErr
  refine Finset.sum_le_sum fun x _ => Finset.sum_le_sum fun y _ => ?_
  cases hs : shade cov (T.zip (List.replicate n (⟨0, 0, 0⟩ : RGB))) (x, y) with
  | none => simp
  | some c =>
    have hc : c = ⟨0, 0, 0⟩ := by
      unfold shade at hs
      rw [Option.map_eq_some_iff] at hs
      obtain ⟨⟨t, c'⟩, h1, rfl⟩ := hs
      exact List.eq_of_mem_replicate (List.of_mem_zip (List.mem_of_find?_eq_some h1)).2
    subst hc
    have one : ∀ k : Fin 256, (convertColor (rne 53) k - 0) ^ 2 ≤ 1 := by
      intro k
      obtain ⟨a0, a1⟩ := convert_range R k
      rw [sub_zero]
      exact pow_le_one₀ a0 a1
    have := one (f x y).1
    have := one (f x y).2.1
    have := one (f x y).2.2
    simp only [Option.map_some, Option.getD_some, rgbDist, ofBytes]
    linarith

/-- The final estimate. -/
theorem recolour_bound {A P E E0 E' v v' : ℚ} (hP : 0 < P) (a4 : |v - (A - E / (3 * P))| ≤ 1 / 100000) (a5 : A - E0 / (3 * P) ≤ v + 1 / 100000)
    (b5 : A - E' / (3 * P) ≤ v' + 1 / 100000) (h0 : E0 ≤ 3 * P) (h1 : E' ≤ (1 + 1 / 2 ^ 20) * E + P * (1 / 2 ^ 80)) : v ≤ v' + 1 / 40000 := by
  have p3 : 0 < 3 * P := by linarith
  have h0' : E0 / (3 * P) ≤ 1 := by rw [div_le_one p3]; exact h0
  have h1' : E' / (3 * P) ≤ (1 + 1 / 2 ^ 20) * (E / (3 * P)) + 1 / 3 / 2 ^ 80 := by
    rw [div_le_iff₀ p3]
    have e : ((1 + 1 / 2 ^ 20) * (E / (3 * P)) + 1 / 3 / 2 ^ 80) * (3 * P) = (1 + 1 / 2 ^ 20) * E + P * (1 / 2 ^ 80) := by
      field_simp
    rw [e]; exact h1
  obtain ⟨c1, c2⟩ := abs_le.mp a4
  norm_num at h1' ⊢
  linarith

theorem mapM_length {α β : Type} (f : α → Option β) : ∀ (l : List α) {r : List β}, l.mapM f = some r → r.length = l.length
  | [], r, h => by simp at h; simp [h]
  | a :: l, r, h => by
    simp only [List.mapM_cons, Option.bind_eq_bind, Option.bind_eq_some_iff, Option.pure_def, Option.some.injEq] at h
    obtain ⟨b, -, r', h2, rfl⟩ := h
    simp [mapM_length f l h2]

section
variable {w h : Nat} {T : List Tri} {P : List (List (ℚ × ℚ))}

/-- **C94**, triangles, exact arithmetic: for an 8-bit image of at most 6876000 pixels, reordering the channels, or taking the negative of some of them, does not
change the fitness. -/
theorem c94_triangles_exact (ρ : List Recolour) (z : ℚ) (f : Nat → Nat → Fin 256 × Fin 256 × Fin 256) {bs : Nat} (hb : 1 ≤ bs) (hb' : bs ≤ 16)
    (hw1 : 1 ≤ w) (hh1 : 1 ≤ h) (hw : w ≤ 32767) (hh : h ≤ 32767) (hwh : w * h ≤ 6876000) (M : Mesh w h T) :
    evalTris id z (ofBytes id w h fun x y => bytesOf ρ (f x y)) bs T = evalTris id z (ofBytes id w h f) bs T := by
  have le : ∀ (ρ : List Recolour) (f : Nat → Nat → Fin 256 × Fin 256 × Fin 256) (v v' : ℚ), evalTris id z (ofBytes id w h f) bs T = some v →
      evalTris id z (ofBytes id w h fun x y => bytesOf ρ (f x y)) bs T = some v' → v ≤ v' := by
    intro ρ f v v' e e'
    obtain ⟨out, cs, v1, a1, a2, a3, a4, -⟩ := c87_exact z f hb hb' hw1 hh1 hw hh hwh M
    obtain ⟨-, -, v2, -, -, b3, -, b5, -⟩ := c87_exact z (fun x y => bytesOf ρ (f x y)) hb hb' hw1 hh1 hw hh hwh M
    rw [e] at a3; cases a3
    rw [e'] at b3; cases b3
    have hl : cs.length = T.length := by
      have := congrArg List.length a2
      rw [List.length_map, List.length_map] at this
      rw [← this]
      exact mapM_length _ _ a1
    have := b5 (cs.map (rgbOf ρ)) (by rw [List.length_map, hl])
    rw [err_recolour, ← a4] at this
    exact this
  obtain ⟨-, -, v, -, -, e, -⟩ := c87_exact z f hb hb' hw1 hh1 hw hh hwh M
  obtain ⟨-, -, v', -, -, e', -⟩ := c87_exact z (fun x y => bytesOf ρ (f x y)) hb hb' hw1 hh1 hw hh hwh M
  have h1 := le ρ f v v' e e'
  have h2 := le ρ.reverse (fun x y => bytesOf ρ (f x y)) v' v e' (by simpa only [bytesOf_reverse] using e)
  rw [e, e', le_antisymm h1 h2]

/-- **C94**, polygons no two of which share a pixel, exact arithmetic. -/
theorem c94_polygons_exact (ρ : List Recolour) (z : ℚ) (f : Nat → Nat → Fin 256 × Fin 256 × Fin 256) {bs : Nat} (hb : 1 ≤ bs) (hb' : bs ≤ 16)
    (hw1 : 1 ≤ w) (hh1 : 1 ≤ h) (hw : w ≤ 32768) (hh : h ≤ 32768) (hwh : w * h ≤ 6876000)
    (hQ : ∀ ps ∈ P.map (roundPoly id), PolyIn w h ps) (hne : ∀ ps ∈ P.map (roundPoly id), ps ≠ [])
    (hn : ((P.map (roundPoly id)).flatMap (DDAPolygon id z)).Nodup) :
    evalPolys id z (ofBytes id w h fun x y => bytesOf ρ (f x y)) bs P = evalPolys id z (ofBytes id w h f) bs P := by
  have le : ∀ (ρ : List Recolour) (f : Nat → Nat → Fin 256 × Fin 256 × Fin 256) (v v' : ℚ), evalPolys id z (ofBytes id w h f) bs P = some v →
      evalPolys id z (ofBytes id w h fun x y => bytesOf ρ (f x y)) bs P = some v' → v ≤ v' := by
    intro ρ f v v' e e'
    obtain ⟨out, cs, v1, a1, a2, a3, a4, -⟩ := c92_exact z f hb hb' hw1 hh1 hw hh hwh rfl hQ hne hn
    obtain ⟨-, -, v2, -, -, b3, -, b5, -⟩ := c92_exact z (fun x y => bytesOf ρ (f x y)) hb hb' hw1 hh1 hw hh hwh rfl hQ hne hn
    rw [e] at a3; cases a3
    rw [e'] at b3; cases b3
    have hl : cs.length = (P.map (roundPoly id)).length := by
      have := congrArg List.length a2
      rw [List.length_map, List.length_map] at this
      rw [← this]
      exact mapM_length _ _ a1
    have := b5 (cs.map (rgbOf ρ)) (by rw [List.length_map, hl])
    rw [err_recolour, ← a4] at this
    exact this
  obtain ⟨-, -, v, -, -, e, -⟩ := c92_exact z f hb hb' hw1 hh1 hw hh hwh rfl hQ hne hn
  obtain ⟨-, -, v', -, -, e', -⟩ := c92_exact z (fun x y => bytesOf ρ (f x y)) hb hb' hw1 hh1 hw hh hwh rfl hQ hne hn
  have h1 := le ρ f v v' e e'
  have h2 := le ρ.reverse (fun x y => bytesOf ρ (f x y)) v' v e' (by simpa only [bytesOf_reverse] using e)
  rw [e, e', le_antisymm h1 h2]

/-- **C94**, triangles, IEEE arithmetic (partial: up to 1/40000, see `c94_ieee_false`; 8-bit images of at most 6800000 pixels): reordering the channels, or taking
the negative of some of them, changes the fitness by at most 1/40000. -/
theorem c94_triangles_ieee_partial (ρ : List Recolour) (z : ℚ) (f : Nat → Nat → Fin 256 × Fin 256 × Fin 256) {bs : Nat}
    (hb : 1 ≤ bs) (hb' : bs ≤ 16) (hw1 : 1 ≤ w) (hh1 : 1 ≤ h) (hw : w ≤ 32767) (hh : h ≤ 32767) (hwh : w * h ≤ 6800000) (M : Mesh w h T) :
    ∃ v v', evalTris (rne 53) z (ofBytes (rne 53) w h f) bs T = some v ∧
      evalTris (rne 53) z (ofBytes (rne 53) w h fun x y => bytesOf ρ (f x y)) bs T = some v' ∧ |v' - v| ≤ 1 / 40000 := by
  have hP : (0 : ℚ) < w * h := by
    have : (1 : ℚ) ≤ w := by exact_mod_cast hw1
    have : (1 : ℚ) ≤ h := by exact_mod_cast hh1
    positivity
  have le : ∀ (ρ : List Recolour) (f : Nat → Nat → Fin 256 × Fin 256 × Fin 256) (v v' : ℚ),
      evalTris (rne 53) z (ofBytes (rne 53) w h f) bs T = some v →
      evalTris (rne 53) z (ofBytes (rne 53) w h fun x y => bytesOf ρ (f x y)) bs T = some v' → v ≤ v' + 1 / 40000 := by
    intro ρ f v v' e e'
    obtain ⟨out, cs, v1, a1, a2, a3, a4, a5⟩ := c87_ieee z f hb hb' hw1 hh1 hw hh hwh M
    obtain ⟨-, -, v2, -, -, b3, -, b5⟩ := c87_ieee z (fun x y => bytesOf ρ (f x y)) hb hb' hw1 hh1 hw hh hwh M
    rw [e] at a3; cases a3
    rw [e'] at b3; cases b3
    have hl : cs.length = T.length := by
      have := congrArg List.length a2
      rw [List.length_map, List.length_map] at this
      rw [← this]
      exact mapM_length _ _ a1
    have := b5 (cs.map (rgbOf ρ)) (by rw [List.length_map, hl])
    exact recolour_bound hP a4 (a5 (List.replicate _ ⟨0, 0, 0⟩) List.length_replicate) this (black_le ..) (err_recolour_le ..)
  obtain ⟨-, -, v, -, -, e, -⟩ := c87_ieee z f hb hb' hw1 hh1 hw hh hwh M
  obtain ⟨-, -, v', -, -, e', -⟩ := c87_ieee z (fun x y => bytesOf ρ (f x y)) hb hb' hw1 hh1 hw hh hwh M
  have h1 := le ρ f v v' e e'
  have h2 := le ρ.reverse (fun x y => bytesOf ρ (f x y)) v' v e' (by simpa only [bytesOf_reverse] using e)
  exact ⟨v, v', e, e', abs_le.mpr ⟨by linarith, by linarith⟩⟩

/-- **C94**, polygons, IEEE arithmetic (partial: up to 1/40000; the conditions of `c92_ieee_partial`). -/
theorem c94_polygons_ieee_partial (ρ : List Recolour) (z : ℚ) (f : Nat → Nat → Fin 256 × Fin 256 × Fin 256) {bs : Nat}
    (hb : 1 ≤ bs) (hb' : bs ≤ 16) (hw1 : 1 ≤ w) (hh1 : 1 ≤ h) (hw : w ≤ 32768) (hh : h ≤ 32768) (hwh : w * h ≤ 6800000)
    (hQ : ∀ ps ∈ P.map (roundPoly (rne 53)), PolyIn w h ps) (hne : ∀ ps ∈ P.map (roundPoly (rne 53)), ps ≠ [])
    (hd : ∀ ps ∈ P.map (roundPoly (rne 53)), ∀ t ∈ fan ps, NonDegenerate t)
    (hn : ((P.map (roundPoly (rne 53))).flatMap (DDAPolygon (rne 53) z)).Nodup) (hlen : (P.map (roundPoly (rne 53))).length ≤ 2 * (w * h)) :
    ∃ v v', evalPolys (rne 53) z (ofBytes (rne 53) w h f) bs P = some v ∧
      evalPolys (rne 53) z (ofBytes (rne 53) w h fun x y => bytesOf ρ (f x y)) bs P = some v' ∧ |v' - v| ≤ 1 / 40000 := by
  have hP : (0 : ℚ) < w * h := by
    have : (1 : ℚ) ≤ w := by exact_mod_cast hw1
    have : (1 : ℚ) ≤ h := by exact_mod_cast hh1
    positivity
  have le : ∀ (ρ : List Recolour) (f : Nat → Nat → Fin 256 × Fin 256 × Fin 256) (v v' : ℚ),
      evalPolys (rne 53) z (ofBytes (rne 53) w h f) bs P = some v →
      evalPolys (rne 53) z (ofBytes (rne 53) w h fun x y => bytesOf ρ (f x y)) bs P = some v' → v ≤ v' + 1 / 40000 := by
    intro ρ f v v' e e'
    obtain ⟨out, cs, v1, a1, a2, a3, a4, a5, -⟩ := c92_ieee_partial z f hb hb' hw1 hh1 hw hh hwh rfl hQ hne hd hn hlen
    obtain ⟨-, -, v2, -, -, b3, -, b5, -⟩ := c92_ieee_partial z (fun x y => bytesOf ρ (f x y)) hb hb' hw1 hh1 hw hh hwh rfl hQ hne hd hn hlen
    rw [e] at a3; cases a3
    rw [e'] at b3; cases b3
    have hl : cs.length = (P.map (roundPoly (rne 53))).length := by
      have := congrArg List.length a2
      rw [List.length_map, List.length_map] at this
      rw [← this]
      exact mapM_length _ _ a1
    have := b5 (cs.map (rgbOf ρ)) (by rw [List.length_map, hl])
    exact recolour_bound hP a4 (a5 (List.replicate _ ⟨0, 0, 0⟩) List.length_replicate) this (black_le ..) (err_recolour_le ..)
  obtain ⟨-, -, v, -, -, e, -⟩ := c92_ieee_partial z f hb hb' hw1 hh1 hw hh hwh rfl hQ hne hd hn hlen
  obtain ⟨-, -, v', -, -, e', -⟩ := c92_ieee_partial z (fun x y => bytesOf ρ (f x y)) hb hb' hw1 hh1 hw hh hwh rfl hQ hne hd hn hlen
  have h1 := le ρ f v v' e e'
  have h2 := le ρ.reverse (fun x y => bytesOf ρ (f x y)) v' v e' (by simpa only [bytesOf_reverse] using e)
  exact ⟨v, v', e, e', abs_le.mpr ⟨by linarith, by linarith⟩⟩

end

/-! ### Red and green, any rounding -/

/-- The image with red and green exchanged. -/
def swapImg (I : Img) : Img := ⟨I.w, I.h, fun x y => Recolour.swapRG.rgb (I.px x y)⟩

def swapPixel (p : Pixel) : Pixel := ⟨p.g, p.r, p.b, p.sq⟩
def swapSums (s : Sums) : Sums := ⟨s.n, s.g, s.r, s.b, s.sq⟩

theorem sqSum_swap (fl : ℚ → ℚ) (c : RGB) : sqSum fl (Recolour.swapRG.rgb c) = sqSum fl c := by
  unfold sqSum
  simp only [Recolour.rgb]
  rw [add_comm (sqTerm fl c.g)]

theorem mkPixel_swap (fl : ℚ → ℚ) (c : RGB) : mkPixel fl (Recolour.swapRG.rgb c) = swapPixel (mkPixel fl c) := by
  unfold mkPixel swapPixel
  rw [sqSum_swap]
  rfl

theorem foldl_swap {α β γ : Type} (φ : β → γ) (f : β → α → β) (g : γ → α → γ) (hfg : ∀ b a, g (φ b) a = φ (f b a)) :
    ∀ (l : List α) (b : β), l.foldl g (φ b) = φ (l.foldl f b)
  | [], _ => rfl
  | a :: l, b => by rw [List.foldl_cons, hfg, foldl_swap φ f g hfg l, List.foldl_cons]

theorem foldlM_swap {α β γ : Type} (φ : β → γ) (f : β → α → Option β) (g : γ → α → Option γ) (hfg : ∀ b a, g (φ b) a = (f b a).map φ) :
    ∀ (l : List α) (b : β), l.foldlM g (φ b) = (l.foldlM f b).map φ
  | [], _ => rfl
  | a :: l, b => by
    simp only [List.foldlM_cons, hfg]
    cases f b a with
    | none => rfl
    | some b' => exact foldlM_swap φ f g hfg l b'

theorem blockAt_swap (fl : ℚ → ℚ) (I : Img) (n x y : Nat) : blockAt fl (swapImg I) n x y = swapPixel (blockAt fl I n x y) := by
  unfold blockAt
  refine foldl_swap swapPixel _ _ (fun s i => ?_) _ ⟨0, 0, 0, 0⟩
  refine foldl_swap swapPixel _ _ (fun s j => ?_) _ s
  unfold addPixelN
  simp only [swapImg, sqSum_swap]
  rfl

theorem sumStep_swap (fl : ℚ → ℚ) (I : Img) (bs : Nat) (s : Sums) (ev : Ev) :
    sumStep fl (swapImg I) bs (swapSums s) ev = (sumStep fl I bs s ev).map swapSums := by
  cases ev with
  | line x0 x1 y =>
    unfold sumStep
    by_cases hy : 0 ≤ y ∧ y < (I.h : Int)
    · have hy' : 0 ≤ y ∧ y < ((swapImg I).h : Int) := hy
      simp only [if_pos hy, if_pos hy', Option.map_some]
      by_cases hx : 0 ≤ x0 ∧ x1 ≤ (I.w : Int)
      · have hx' : 0 ≤ x0 ∧ x1 ≤ ((swapImg I).w : Int) := hx
        simp only [if_pos hx, if_pos hx']
        rw [foldl_swap swapSums (fun s x => s.add 0 (mkPixel fl (I.px x.toNat y.toNat))) _ (fun s x => by
          simp only [swapImg, mkPixel_swap]; rfl)]
        rfl
      · have hx' : ¬ (0 ≤ x0 ∧ x1 ≤ ((swapImg I).w : Int)) := hx
        simp only [if_neg hx, if_neg hx']
        rfl
    · have hy' : ¬ (0 ≤ y ∧ y < ((swapImg I).h : Int)) := hy
      simp only [if_neg hy, if_neg hy', Option.map_none]
  | block x y =>
    unfold sumStep
    by_cases hc : 0 ≤ y ∧ y < (I.h : Int) - bs + 1 ∧ 0 ≤ x ∧ x < (I.w : Int) - bs + 1
    · have hc' : 0 ≤ y ∧ y < ((swapImg I).h : Int) - bs + 1 ∧ 0 ≤ x ∧ x < ((swapImg I).w : Int) - bs + 1 := hc
      simp only [if_pos hc, if_pos hc', Option.map_some, blockAt_swap]
      rfl
    · have hc' : ¬ (0 ≤ y ∧ y < ((swapImg I).h : Int) - bs + 1 ∧ 0 ≤ x ∧ x < ((swapImg I).w : Int) - bs + 1) := hc
      simp only [if_neg hc, if_neg hc', Option.map_none]

theorem sumsDiff_swap (fl : ℚ → ℚ) (s : Sums) : sumsDiff fl (swapSums s) = sumsDiff fl s := by
  unfold sumsDiff swapSums
  simp only [add_comm (s.g * s.g)]

theorem value_swap (fl : ℚ → ℚ) (I : Img) (bs : Nat) (evs : List Ev) :
    (evs.foldlM (sumStep fl (swapImg I) bs) ⟨0, 0, 0, 0, 0⟩).map (sumsDiff fl) = (evs.foldlM (sumStep fl I bs) ⟨0, 0, 0, 0, 0⟩).map (sumsDiff fl) := by
  have := foldlM_swap swapSums _ _ (sumStep_swap fl I bs) evs ⟨0, 0, 0, 0, 0⟩
  rw [show swapSums ⟨0, 0, 0, 0, 0⟩ = ⟨0, 0, 0, 0, 0⟩ from rfl] at this
  rw [this, Option.map_map]
  congr 1
  funext s
  exact sumsDiff_swap fl s

/-- **C94**, red and green: exchanging them does not change the fitness of any triangles and polygons, for any image, any block size and any arithmetic. -/
theorem c94_swap (fl : ℚ → ℚ) (z : ℚ) (I : Img) (bs : Nat) (T : List Tri) (P : List (List (ℚ × ℚ))) :
    evalTris fl z (swapImg I) bs T = evalTris fl z I bs T ∧ evalPolys fl z (swapImg I) bs P = evalPolys fl z I bs P := by
  constructor
  · unfold evalTris triValue triSums
    simp only [value_swap]
    rfl
  · unfold evalPolys polyValue
    simp only [value_swap]
    rfl

/-- A 4 x 4 image of one colour. -/
def plain (fl : ℚ → ℚ) (k : Fin 256 × Fin 256 × Fin 256) : Img := ofBytes fl 4 4 fun _ _ => k

/-- **C94** is false of the code: stored squares are sums of rounded floats, cut to integers, and depend on the order of the channels.  With IEEE arithmetic the image
of colour (7, 7, 4), triangulated by its corners, has another fitness than that of colour (4, 7, 7). -/
theorem c94_ieee_false : ∃ d v v', exec (gridGeo ieee 4 4) (rne 53) 4 4 (cornerOps 4 4) = some d ∧
    evalTris (rne 53) 0 (plain (rne 53) (7, 7, 4)) 2 (iterTriangles d) = some v ∧
    evalTris (rne 53) 0 (plain (rne 53) (bytesOf [.swapGB, .swapRG] (7, 7, 4))) 2 (iterTriangles d) = some v' ∧ v ≠ v' := by
  have key : ((exec (gridGeo ieee 4 4) (rne 53) 4 4 (cornerOps 4 4)).bind fun d =>
      (evalTris (rne 53) 0 (plain (rne 53) (7, 7, 4)) 2 (iterTriangles d)).bind fun v =>
      (evalTris (rne 53) 0 (plain (rne 53) (bytesOf [.swapGB, .swapRG] (7, 7, 4))) 2 (iterTriangles d)).map fun v' => decide (v ≠ v')) = some true := by
    decide +kernel
  simp only [Option.bind_eq_some_iff, Option.map_eq_some_iff] at key
  obtain ⟨d, h1, v, h2, v', h3, h4⟩ := key
  exact ⟨d, v, v', h1, h2, h3, of_decide_eq_true h4⟩

/-- Two colours. -/
def twoColours (x y : Nat) : Fin 256 × Fin 256 × Fin 256 := if (x + y) % 2 = 0 then (10, 200, 30) else (255, 0, 17)

example : ∃ d, exec (gridGeo ieee 40 30) (rne 53) 40 30 demoOps = some d ∧
    evalTris id 0 (ofBytes id 40 30 fun x y => bytesOf [.negR, .swapGB] (twoColours x y)) 5 (iterTriangles d) =
      evalTris id 0 (ofBytes id 40 30 twoColours) 5 (iterTriangles d) := by
  obtain ⟨d, e⟩ := demo_exec
  exact ⟨d, e, c94_triangles_exact _ 0 twoColours (by norm_num) (by norm_num) (by norm_num) (by norm_num) (by norm_num) (by norm_num) (by norm_num)
    (mesh_of demo_arith demo_hist e)⟩

example : ∃ d v v', exec (gridGeo ieee 40 30) (rne 53) 40 30 demoOps = some d ∧
    evalTris (rne 53) 0 (ofBytes (rne 53) 40 30 twoColours) 5 (iterTriangles d) = some v ∧
    evalTris (rne 53) 0 (ofBytes (rne 53) 40 30 fun x y => bytesOf [.negR, .swapGB] (twoColours x y)) 5 (iterTriangles d) = some v' ∧ |v' - v| ≤ 1 / 40000 := by
  obtain ⟨d, e⟩ := demo_exec
  obtain ⟨v, v', h⟩ := c94_triangles_ieee_partial [.negR, .swapGB] 0 twoColours (bs := 5) (by norm_num) (by norm_num) (by norm_num)
    (by norm_num) (by norm_num) (by norm_num) (by norm_num) (mesh_of demo_arith demo_hist e)
  exact ⟨d, v, v', e, h⟩

example : evalPolys id 0 (ofBytes id 20 12 fun x y => bytesOf [.negR, .swapGB] (twoColours x y)) 5 pair = evalPolys id 0 (ofBytes id 20 12 twoColours) 5 pair := by
  have e : pair.map (roundPoly id) = [penta, [⟨14, 3⟩, ⟨20, 1⟩, ⟨19, 12⟩, ⟨12, 11⟩]] := by decide +kernel
  exact c94_polygons_exact _ 0 twoColours (by norm_num) (by norm_num) (by norm_num) (by norm_num) (by norm_num) (by norm_num) (by norm_num)
    (by rw [e]; unfold PolyIn; decide) (by rw [e]; decide) (by rw [e]; decide +kernel)

example : ∃ v v', evalPolys (rne 53) 0 (ofBytes (rne 53) 20 12 twoColours) 5 pair = some v ∧
    evalPolys (rne 53) 0 (ofBytes (rne 53) 20 12 fun x y => bytesOf [.negR, .swapGB] (twoColours x y)) 5 pair = some v' ∧ |v' - v| ≤ 1 / 40000 := by
  obtain ⟨-, h1, h2, h3, h4, h5⟩ := pair_ok
  exact c94_polygons_ieee_partial _ 0 twoColours (by norm_num) (by norm_num) (by norm_num) (by norm_num) (by norm_num) (by norm_num) (by norm_num)
    h1 h2 h3 h4 h5

end Verif.Props

import Verif.Props.RasterRange
import Verif.Props.FitnessBound

/-!
# C112: no float operation of the fitness of triangles leaves the normal range
-/

namespace Verif.Props

open Verif.Tri Verif.Spec Verif.Incr Verif.Float Verif.Raster Verif.Fit

variable {fl : ℚ → ℚ} {z : ℚ} {w h : Nat}

/-- Rounding keeps multiples of a power of two. -/
theorem Dyad.rne {p : Nat} (hp : 1 ≤ p) {a b : ℤ} {x : ℚ} (d : Dyad a b x) : Dyad a b (rne p x) := by
  have m := (d.mag.rne hp).1
  refine ⟨?_, m.le⟩
  obtain ⟨⟨n, hn⟩, -⟩ := d
  rcases le_or_gt ((2 : ℚ) ^ (a + (p - 1 : ℤ))) |Float.rne p x| with c | c
  · have r := rne_rep p x
    rcases abs_choice (Float.rne p x) with s | s
    · rw [s] at c
      obtain ⟨k, hk⟩ := rep_above hp r c
      exact ⟨k, by rw [hk]; congr 2; ring⟩
    · rw [s] at c
      obtain ⟨k, hk⟩ := rep_above hp (rep_neg r) c
      refine ⟨-k, ?_⟩
      rw [show a + ((p : ℤ) - 1) - (p - 1) = a by ring] at hk
      push_cast
      linarith
  · refine ⟨n, ?_⟩
    rw [← hn]
    refine rne_fix hp ⟨n, a, ?_, hn⟩
    by_contra l
    have l := not_le.mp l
    have big : (2 : ℚ) ^ (a + (p - 1 : ℤ)) ≤ |x| := by
      rw [hn, abs_mul, abs_of_pos (zpow_pos (by norm_num : (0 : ℚ) < 2) a), zpow_add₀ (by norm_num), mul_comm]
      refine mul_le_mul_of_nonneg_right ?_ (zpow_pos (by norm_num) _).le
      have : (2 : ℚ) ^ ((p : ℤ) - 1) ≤ (2 : ℚ) ^ (p : ℤ) := two_mono (by omega)
      refine this.trans ?_
      rw [zpow_natCast]
      exact_mod_cast l.le
    have := rne_mono hp big
    rw [rne_fix hp (rep_two p _), ← rne_absolute p x hp] at this
    linarith

theorem Normal64.dyad (N : Normal64 fl) {a b : ℤ} {x : ℚ} (d : Dyad a b x) (ha : -1022 ≤ a) (hb : b ≤ 1023) :
    fl x = rne 53 x ∧ Dyad a b (rne 53 x) := ⟨N _ (d.mag.mono ha hb), d.rne (by norm_num)⟩

theorem Normal64.mag (N : Normal64 fl) {a b : ℤ} {x : ℚ} (d : Mag a b x) (ha : -1022 ≤ a) (hb : b ≤ 1023) :
    fl x = rne 53 x ∧ Mag a b (rne 53 x) := ⟨N _ (d.mono ha hb), (d.rne (by norm_num)).1⟩

/-- A channel of an 8-bit colour (rgbdata.go 57-59 `convertColor`). -/
def Chan (c : ℚ) : Prop := Mag (-8) 0 c ∧ 0 ≤ c

theorem convert_normal (N : Normal64 fl) (k : Fin 256) : convertColor fl k = convertColor (rne 53) k ∧ Chan (convertColor (rne 53) k) := by
  have m : Mag (-8) 0 (((k : Nat) : ℚ) / 255) := by
    rcases Nat.eq_zero_or_pos k.val with e | e
    · left; simp [e]
    · right
      have a : (1 : ℚ) ≤ (k : Nat) := by exact_mod_cast e
      have b : ((k : Nat) : ℚ) ≤ 255 := by exact_mod_cast (by omega : k.val ≤ 255)
      rw [abs_of_nonneg (by positivity)]
      norm_num
      constructor <;> linarith
  obtain ⟨e, q⟩ := N.mag m (by norm_num) (by norm_num)
  unfold convertColor
  exact ⟨e, q, rne_nonneg (by norm_num) (by positivity)⟩

theorem mag_255 : Mag 0 8 (255 : ℚ) := Or.inr ⟨by norm_num, by norm_num⟩

theorem chan_normal (N : Normal64 fl) {c : ℚ} (hc : Chan c) : fl (c * 255) = rne 53 (c * 255) ∧
    sqTerm fl c = sqTerm (rne 53) c ∧ Mag (-16) 16 (sqTerm (rne 53) c) ∧ 0 ≤ sqTerm (rne 53) c := by
  obtain ⟨m, c0⟩ := hc
  obtain ⟨e1, q1⟩ := N.mag (m.mul mag_255) (by norm_num) (by norm_num)
  obtain ⟨e2, q2⟩ := N.mag (q1.mul m) (by norm_num) (by norm_num)
  obtain ⟨e3, q3⟩ := N.mag (q2.mul mag_255) (by norm_num) (by norm_num)
  have n1 : 0 ≤ rne 53 (c * 255) := rne_nonneg (by norm_num) (by positivity)
  have n2 : 0 ≤ rne 53 (rne 53 (c * 255) * c) := rne_nonneg (by norm_num) (by positivity)
  unfold sqTerm
  rw [e1, e2, e3]
  exact ⟨rfl, rfl, q3.mono (by norm_num) (by norm_num), rne_nonneg (by norm_num) (by positivity)⟩

/-- An 8-bit colour (rgbdata.go 57-59, for three channels). -/
def Col8 (c : RGB) : Prop := Chan c.r ∧ Chan c.g ∧ Chan c.b

theorem sqSum_normal (N : Normal64 fl) {c : RGB} (hc : Col8 c) : sqSum fl c = sqSum (rne 53) c := by
  obtain ⟨r, g, b⟩ := hc
  obtain ⟨-, r1, r2, r3⟩ := chan_normal N r
  obtain ⟨-, g1, g2, g3⟩ := chan_normal N g
  obtain ⟨-, b1, b2, b3⟩ := chan_normal N b
  obtain ⟨e1, q1⟩ := N.mag (r2.add g2 r3 g3) (by norm_num) (by norm_num)
  have n1 : 0 ≤ rne 53 (sqTerm (rne 53) c.r + sqTerm (rne 53) c.g) := rne_nonneg (by norm_num) (by positivity)
  obtain ⟨e2, -⟩ := N.mag (q1.add (b2.mono (a' := -16) (b' := 16 + 1) (by norm_num) (by norm_num)) n1 b3) (by norm_num) (by norm_num)
  unfold sqSum
  rw [r1, g1, b1, e1, e2]

theorem mkPixel_normal (N : Normal64 fl) {c : RGB} (hc : Col8 c) : mkPixel fl c = mkPixel (rne 53) c := by
  unfold mkPixel
  rw [sqSum_normal N hc, (chan_normal N hc.1).1, (chan_normal N hc.2.1).1, (chan_normal N hc.2.2).1]

theorem addPixelN_normal (N : Normal64 fl) {c : RGB} (hc : Col8 c) (s : Pixel) : addPixelN fl s c = addPixelN (rne 53) s c := by
  unfold addPixelN
  rw [sqSum_normal N hc, (chan_normal N hc.1).1, (chan_normal N hc.2.1).1, (chan_normal N hc.2.2).1]

theorem sumStep_normal (N : Normal64 fl) {I : Img} (hI : ∀ x y, Col8 (I.px x y)) (bs : Nat) : sumStep fl I bs = sumStep (rne 53) I bs := by
  funext s e
  cases e with
  | line x0 x1 y => simp only [sumStep, mkPixel_normal N (hI _ _)]
  | block x y => simp only [sumStep, blockAt, addPixelN_normal N (hI _ _)]

theorem img_normal (N : Normal64 fl) (f : Nat → Nat → Fin 256 × Fin 256 × Fin 256) :
    ofBytes fl w h f = ofBytes (rne 53) w h f ∧ ∀ x y, Col8 ((ofBytes (rne 53) w h f).px x y) := by
  unfold ofBytes
  constructor
  · simp only [(convert_normal N _).1]
  · intro x y
    exact ⟨(convert_normal N _).2, (convert_normal N _).2, (convert_normal N _).2⟩

theorem coord_img (hw : w ≤ 32767) (hh : h ≤ 32767) {t : Tri} (ht : InImage w h t) : CoordT t := by
  obtain ⟨a1, a2, a3, a4⟩ := ht t.a (by simp [vlist])
  obtain ⟨b1, b2, b3, b4⟩ := ht t.b (by simp [vlist])
  obtain ⟨c1, c2, c3, c4⟩ := ht t.c (by simp [vlist])
  unfold CoordT Coord
  simp only [abs_le]
  omega

theorem sumsDiff_normal (N : Normal64 fl) {s : Sums} (hn : |s.n| ≤ 2 ^ 63) (hq : |s.sq| ≤ 2 ^ 63) :
    sumsDiff fl s = sumsDiff (rne 53) s ∧ Dyad (-115) 64 (sumsDiff (rne 53) s) := by
  obtain ⟨e1, q1⟩ := N.dyad (dy_int hq) (by norm_num) (by norm_num)
  obtain ⟨e2, q2⟩ := N.dyad (dy_int hn) (by norm_num) (by norm_num)
  obtain ⟨e3, q3⟩ := N.dyad (dy_int (w64_abs (s.r * s.r + s.g * s.g + s.b * s.b))) (by norm_num) (by norm_num)
  have q := q3.mag.div q2.mag
  have d := (q.rne (p := 53) (by norm_num)).2
  obtain ⟨e4, -⟩ := N.mag q (by norm_num) (by norm_num)
  obtain ⟨e5, q5⟩ := N.dyad ((q1.mono (a' := -115) (b' := 63) (by norm_num) (by norm_num)).sub (d.mono (a' := -115) (b' := 63) (by norm_num) (by norm_num)))
    (by norm_num) (by norm_num)
  unfold sumsDiff
  split_ifs
  · rw [e1, e2, e3, e4, e5]
    exact ⟨rfl, q5.mono (by norm_num) (by norm_num)⟩
  · exact ⟨rfl, ⟨0, by simp⟩, by rw [abs_zero]; exact (zpow_pos (by norm_num) _).le⟩

theorem areaTerm_normal (N : Normal64 fl) (t : Tri) : areaTerm fl t = areaTerm (rne 53) t ∧ Dyad (-115) 64 (areaTerm (rne 53) t) := by
  have pr (x y : Int) : Dyad 0 30 ((w16 x : ℚ) * w16 y) := by
    have : |w16 x * w16 y| ≤ 2 ^ 30 := by
      rw [abs_mul]
      calc |w16 x| * |w16 y| ≤ 2 ^ 15 * 2 ^ 15 := mul_le_mul (w16_abs x) (w16_abs y) (abs_nonneg _) (by norm_num)
        _ = 2 ^ 30 := by norm_num
    have := dy_int this
    push_cast at this
    exact this
  obtain ⟨e1, q1⟩ := N.dyad (pr (t.b.x - t.a.x) (t.c.y - t.a.y)) (by norm_num) (by norm_num)
  obtain ⟨e2, q2⟩ := N.dyad (pr (t.c.x - t.a.x) (t.b.y - t.a.y)) (by norm_num) (by norm_num)
  obtain ⟨e3, q3⟩ := N.dyad (q1.sub q2) (by norm_num) (by norm_num)
  have half : Dyad (-1) 31 (1 / 2 * rne 53 (rne 53 ((w16 (t.b.x - t.a.x) : ℚ) * w16 (t.c.y - t.a.y)) - rne 53 ((w16 (t.c.x - t.a.x) : ℚ) * w16 (t.b.y - t.a.y)))) := by
    obtain ⟨⟨n, hn⟩, b⟩ := q3
    refine ⟨⟨n, ?_⟩, ?_⟩
    · rw [hn]; norm_num; ring
    · rw [abs_mul, abs_of_pos (by norm_num : (0 : ℚ) < 1 / 2)]
      norm_num at b ⊢
      linarith [abs_nonneg (rne 53 (rne 53 ((w16 (t.b.x - t.a.x) : ℚ) * w16 (t.c.y - t.a.y)) - rne 53 ((w16 (t.c.x - t.a.x) : ℚ) * w16 (t.b.y - t.a.y))))]
  obtain ⟨e4, q4⟩ := N.dyad half (by norm_num) (by norm_num)
  unfold areaTerm
  rw [e1, e2, e3, e4]
  refine ⟨rfl, ?_⟩
  have d := q4.mono (a' := -115) (b' := 64) (by norm_num) (by norm_num)
  rcases abs_choice (rne 53 (1 / 2 * rne 53 (rne 53 ((w16 (t.b.x - t.a.x) : ℚ) * w16 (t.c.y - t.a.y)) - rne 53 ((w16 (t.c.x - t.a.x) : ℚ) * w16 (t.b.y - t.a.y))))) with s | s
  · rw [s]; exact d
  · rw [s]; exact d.neg

/-- A bound for the difference or the area (triangles.go 72-152) after `k` triangles. -/
def Acc (k : Nat) (x : ℚ) : Prop := (∃ n : ℤ, x = n * (2 : ℚ) ^ (-115 : ℤ)) ∧ |x| ≤ k * (2 : ℚ) ^ (64 : ℤ)

theorem Acc.dyad {k : Nat} {x : ℚ} (h : Acc k x) (hk : k ≤ 2 ^ 53) : Dyad (-115) 117 x := by
  refine ⟨h.1, h.2.trans ?_⟩
  have : (k : ℚ) ≤ 2 ^ 53 := by exact_mod_cast hk
  rw [show (117 : ℤ) = 53 + 64 by norm_num, zpow_add₀ (by norm_num)]
  exact mul_le_mul_of_nonneg_right (by exact_mod_cast this) (zpow_pos (by norm_num) _).le

theorem Acc.step (N : Normal64 fl) {k : Nat} {x v : ℚ} (h : Acc k x) (hk : k + 1 ≤ 2 ^ 53) (hv : Dyad (-115) 64 v) :
    fl (x + v) = rne 53 (x + v) ∧ Acc (k + 1) (rne 53 (x + v)) := by
  have a : Acc (k + 1) (x + v) := by
    obtain ⟨⟨n, hn⟩, h2⟩ := h
    obtain ⟨⟨m, hm⟩, v2⟩ := hv
    refine ⟨⟨n + m, by rw [hn, hm]; push_cast; ring⟩, ?_⟩
    push_cast
    rw [add_mul, one_mul]
    exact (abs_add_le x v).trans (add_le_add h2 v2)
  obtain ⟨e, q⟩ := N.dyad (a.dyad hk) (by norm_num) (by norm_num)
  refine ⟨e, q.1, ?_⟩
  have r : Rep 53 (((k + 1 : ℕ) : ℚ) * (2 : ℚ) ^ (64 : ℤ)) := ⟨(k + 1 : ℕ), 64, by
    rw [abs_of_nonneg (by positivity)]; exact_mod_cast hk, by push_cast; rfl⟩
  rw [rne_absolute 53 _ (by norm_num), ← rne_fix (by norm_num) r]
  exact rne_mono (by norm_num) a.2

theorem finish_normal (N : Normal64 fl) {I : Img} (hw : I.w ≤ 32767) (hh : I.h ≤ 32767) {D A : ℚ} (hD : Dyad (-115) 117 D) (hA : Dyad (-115) 117 A) :
    finish fl I D A = finish (rne 53) I D A := by
  have wh : I.w * I.h ≤ 32767 * 32767 := Nat.mul_le_mul hw hh
  have d1 : Dyad 0 63 (((I.w * I.h : Nat) : ℤ) : ℚ) := dy_int (b := 63) (by rw [abs_of_nonneg (by positivity)]; norm_num; omega)
  rw [Int.cast_natCast] at d1
  have d2 : Dyad 0 63 (((maxPixelDifference * I.w * I.h : Int)) : ℚ) := dy_int (b := 63) (by
    unfold maxPixelDifference
    rw [abs_of_nonneg (by positivity), mul_assoc]
    have : ((I.w : Int) * I.h) ≤ 32767 * 32767 := by exact_mod_cast wh
    norm_num
    linarith)
  obtain ⟨e1, q1⟩ := N.dyad d1 (by norm_num) (by norm_num)
  obtain ⟨e2, q2⟩ := N.dyad d2 (by norm_num) (by norm_num)
  obtain ⟨e3, q3⟩ := N.dyad ((q1.mono (a' := -115) (b' := 117) (by norm_num) (by norm_num)).sub hA) (by norm_num) (by norm_num)
  have m : Mag 0 18 ((maxPixelDifference : Int) : ℚ) := Or.inr ⟨by unfold maxPixelDifference; norm_num, by unfold maxPixelDifference; norm_num⟩
  have p := m.mul q3.mag
  obtain ⟨e4, -⟩ := N.mag p (by norm_num) (by norm_num)
  have d4 := (p.rne (p := 53) (by norm_num)).2
  obtain ⟨e5, q5⟩ := N.dyad ((hD.mono (a' := -167) (b' := 136) (by norm_num) (by norm_num)).add (d4.mono (a' := -167) (b' := 136) (by norm_num) (by norm_num)))
    (by norm_num) (by norm_num)
  have q := q5.mag.div q2.mag
  obtain ⟨e6, -⟩ := N.mag q (by norm_num) (by norm_num)
  have d6 := (q.rne (p := 53) (by norm_num)).2
  have one : Dyad (-300) 140 (1 : ℚ) := by
    have := (dy_int (n := 1) (b := 0) (by norm_num)).mono (a' := -300) (b' := 140) (by norm_num) (by norm_num)
    simpa using this
  obtain ⟨e7, -⟩ := N.dyad (one.sub (d6.mono (a' := -300) (b' := 140) (by norm_num) (by norm_num))) (by norm_num) (by norm_num)
  unfold finish
  simp only
  rw [e1, e2, e3, e4, e5, e6, e7]

/-- C112: the fitness of a mesh (triangles.go 72-160, with the pixels of rgbdata.go) is the same with every rounding that is
IEEE rounding for normal numbers.  An image without pixels, where the code divides by zero, is not meant. -/
theorem c112_fitness (N : Normal64 fl) (hz : Mag (-63) 63 z) (f : Nat → Nat → Fin 256 × Fin 256 × Fin 256) {bs : Nat} (hb : 1 ≤ bs) (hb' : bs ≤ 16)
    (hw : w ≤ 32767) (hh : h ≤ 32767) {T : List Tri} (M : Mesh w h T) :
    evalTris fl z (ofBytes fl w h f) bs T = evalTris (rne 53) z (ofBytes (rne 53) w h f) bs T := by
  have R : Rnd 53 (rne 53) := rne_rnd (by norm_num)
  obtain ⟨ei, col⟩ := img_normal (w := w) (h := h) N f
  have hI := ofBytes_ok R w h f
  rw [ei]
  set I := ofBytes (rne 53) w h f with hIdef
  have wI : I.w = w := rfl
  have hIh : I.h = h := rfl
  have wh : w * h ≤ 32767 * 32767 := Nat.mul_le_mul hw hh
  have hlen := length_visits R z hw hh M
  have val : ∀ t ∈ T, triValue fl z I bs t = triValue (rne 53) z I bs t ∧ ∀ v, triValue (rne 53) z I bs t = some v → Dyad (-115) 64 v := by
    intro t ht
    have e : triSums fl z I bs t = triSums (rne 53) z I bs t := by
      unfold triSums
      rw [c111_blocks N hz (coord_img hw hh (M.img t ht)) (by omega), sumStep_normal N col]
    have s := triSums_of R z hI (by rw [wI]; omega) (by rw [hIh]; omega) hb hb' (M.img t ht) (M.nondeg t ht)
    have one := List.single_le_sum (l := T.map fun t => (DDATriangle (rne 53) z t).length) (fun _ _ => Nat.zero_le _) _ (List.mem_map_of_mem ht)
    have len : (triPixels (rne 53) z I t).length = (DDATriangle (rne 53) z t).length := by unfold triPixels; simp
    obtain ⟨-, -, -, u0, u1⟩ := sumsOf_upto (triPixels_upto R z hI (by rw [wI]; omega) (by rw [hIh]; omega) (M.img t ht))
    have n1 : |(sumsOf (triPixels (rne 53) z I t)).n| ≤ 2 ^ 63 := by
      show |((triPixels (rne 53) z I t).length : Int)| ≤ 2 ^ 63
      rw [abs_of_nonneg (by positivity), len]
      norm_num
      omega
    have n2 : |(sumsOf (triPixels (rne 53) z I t)).sq| ≤ 2 ^ 63 := by
      rw [abs_of_nonneg u0]
      rw [len] at u1
      norm_num
      omega
    obtain ⟨d1, d2⟩ := sumsDiff_normal N n1 n2
    unfold triValue
    rw [e, s]
    simp only [Option.map_some, d1, true_and]
    rintro v hv
    cases hv
    exact d2
  have cnt : T.length ≤ 2 ^ 53 := by
    have := mesh_count M
    have : 2 * (w * h) ≤ 2 * (32767 * 32767) := by omega
    norm_num
    omega
  have fold : ∀ (U : List Tri) (k : Nat) (s : ℚ × ℚ), (∀ t ∈ U, t ∈ T) → k + U.length ≤ 2 ^ 53 → Acc k s.1 → Acc k s.2 →
      U.foldlM (fun (s : ℚ × ℚ) t => (triValue fl z I bs t).map fun v => (fl (s.1 + v), fl (s.2 + areaTerm fl t))) s =
        U.foldlM (fun (s : ℚ × ℚ) t => (triValue (rne 53) z I bs t).map fun v => (rne 53 (s.1 + v), rne 53 (s.2 + areaTerm (rne 53) t))) s ∧
      ∀ r, U.foldlM (fun (s : ℚ × ℚ) t => (triValue (rne 53) z I bs t).map fun v => (rne 53 (s.1 + v), rne 53 (s.2 + areaTerm (rne 53) t))) s = some r →
        Dyad (-115) 117 r.1 ∧ Dyad (-115) 117 r.2 := by
    intro U
    induction U with
    | nil =>
      intro k s _ hk a b
      refine ⟨rfl, fun r hr => ?_⟩
      cases hr
      exact ⟨a.dyad (by simpa using hk), b.dyad (by simpa using hk)⟩
    | cons t U ih =>
      intro k s hU hk a b
      rw [List.length_cons] at hk
      obtain ⟨v1, v2⟩ := val t (hU t (by simp))
      obtain ⟨a1, a2⟩ := areaTerm_normal N t
      obtain ⟨b1, b2⟩ := b.step N (by omega) a2
      rw [List.foldlM_cons, List.foldlM_cons, v1, a1, b1]
      cases hv : triValue (rne 53) z I bs t with
      | none => exact ⟨rfl, fun r hr => by cases hr⟩
      | some v =>
        obtain ⟨c1, c2⟩ := a.step N (by omega) (v2 v hv)
        simp only [Option.map_some, c1]
        exact ih (k + 1) _ (fun u hu => hU u (by simp [hu])) (by omega) c2 b2
  have z0 : Acc 0 (0 : ℚ) := ⟨⟨0, by simp⟩, by simp⟩
  obtain ⟨f1, f2⟩ := fold T 0 (0, 0) (fun _ h => h) (by omega) z0 z0
  unfold evalTris
  rw [f1]
  cases hr : T.foldlM (fun (s : ℚ × ℚ) t => (triValue (rne 53) z I bs t).map fun v => (rne 53 (s.1 + v), rne 53 (s.2 + areaTerm (rne 53) t))) (0, 0) with
  | none => rfl
  | some r =>
    obtain ⟨r1, r2⟩ := f2 r hr
    show some (finish fl I r.1 r.2) = some (finish (rne 53) I r.1 r.2)
    rw [finish_normal N hw hh r1 r2]

/-- C112: the same from the points on, with the triangulation computed in such an arithmetic. -/
theorem c112_calculated {F : FloatOps} (N : Normal F) (hz : Mag (-63) 63 z) (f : Nat → Nat → Fin 256 × Fin 256 × Fin 256) {bs : Nat} (hb : 1 ≤ bs) (hb' : bs ≤ 16)
    (k : SizeOk w h) (hn : side w h ≤ 4096) {ops : List Op} {s : Multiset Pt} {m : Nat} (H : Hist w h ops s m) :
    ∃ d, exec (gridGeo F w h) F.r64 w h ops = some d ∧
      evalTris F.r64 z (ofBytes F.r64 w h f) bs (iterTriangles d) = evalTris (rne 53) z (ofBytes (rne 53) w h f) bs (iterTriangles d) := by
  obtain ⟨d, e, -⟩ := c110_valid N k hn H
  have M := mesh_of (arith_normal N (arith_ieee k hn)) H (by rw [← exec_normal N]; exact e)
  exact ⟨d, e, c112_fitness N.r64 hz f hb hb' (k.w2.trans (by norm_num)) (k.h2.trans (by norm_num)) M⟩

-- The arithmetic `flushing` differs from the rounding, and the fitness of the triangles of a history with four points does not.
example : ∃ d, exec (gridGeo flushing 40 30) flushing.r64 40 30 demoOps = some d ∧
    evalTris flushing.r64 0 (ofBytes flushing.r64 40 30 fun x y => if x < y then (7, 7, 7) else (9, 200, 0)) 5 (iterTriangles d) =
      evalTris (rne 53) 0 (ofBytes (rne 53) 40 30 fun x y => if x < y then (7, 7, 7) else (9, 200, 0)) 5 (iterTriangles d) :=
  c112_calculated flushing_normal (Or.inl rfl) _ (by norm_num) (by norm_num) demo_size (by decide) demo_hist
example : ∃ d v, exec (gridGeo ieee 40 30) (rne 53) 40 30 demoOps = some d ∧
    evalTris flushing.r64 0 (ofBytes flushing.r64 40 30 fun _ _ => (7, 7, 7)) 5 (iterTriangles d) = some v := by
  obtain ⟨d, e⟩ := demo_exec
  obtain ⟨v, h1, -⟩ := c37_ieee_partial 0 (fun _ _ => (7, 7, 7)) (bs := 5) (by norm_num) (by norm_num) (by norm_num) (by norm_num) (by norm_num) (by norm_num)
    (mesh_of demo_arith demo_hist e)
  refine ⟨d, v, e, ?_⟩
  rw [c112_fitness flushing64 (Or.inl rfl) _ (by norm_num) (by norm_num) (by norm_num) (by norm_num) (mesh_of demo_arith demo_hist e)]
  exact h1

end Verif.Props

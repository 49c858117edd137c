import Verif.Props.Dense
import Verif.Props.Fill

/-! # C107: the picture of random points

C104 and C105 put together: the probability that the picture exported for random points is poor. -/

namespace Verif.Props

open Verif.Tri Verif.Spec Verif.Float Verif.Raster Verif.Fit Verif.Small Verif.Alg
open Verif.Incr hiding trunc step run Entry

/-- The pixel that `Triangulate` takes for a point is within half a pixel of it, up to rounding. -/
theorem groupPoint_near {fl : ℚ → ℚ} (R : Rnd 53 fl) {w h : Nat} (hw : w ≤ 32767) (hh : h ≤ 32767) {p : NP} (hp : Alg.Unit01 p) :
    |((groupPoint fl w h p).x : ℚ) - p.x * w| ≤ 1 / 2 + 1 / 2 ^ 36 ∧ |((groupPoint fl w h p).y : ℚ) - p.y * h| ≤ 1 / 2 + 1 / 2 ^ 36 := by
  have key : ∀ (n : Nat) (x : ℚ), n ≤ 32767 → 0 ≤ x → x ≤ 1 → |(mathRound (fl (x * n)) : ℚ) - x * n| ≤ 1 / 2 + 1 / 2 ^ 36 := by
    intro n x hn x0 x1
    have n1 : (n : ℚ) ≤ 32767 := by exact_mod_cast hn
    have n0 : (0 : ℚ) ≤ n := by positivity
    have hx0 : 0 ≤ x * n := by positivity
    have hx1 : x * n ≤ 32767 := by nlinarith
    have r1 := R.err (x * n)
    rw [abs_of_nonneg hx0] at r1
    unfold mathRound
    rw [if_pos (R.nonneg hx0)]
    have f1 := Int.floor_le (fl (x * n) + 1 / 2)
    have f2 := Int.lt_floor_add_one (fl (x * n) + 1 / 2)
    rw [abs_le] at *
    norm_num at r1 ⊢
    constructor <;> linarith
  exact ⟨key w _ hw hp.1.1 hp.1.2, key h _ hh hp.2.1 hp.2.2⟩

section
variable {N a b n w h : Nat} {lib : List Pt → List Nat} {ρ η z : ℚ} {f : Nat → Nat → Fin 256 × Fin 256 × Fin 256}

/-- Points drawn in all boxes are in the unit square, and their pixels are dense. -/
theorem drawn_dense {u : Nat → Nat} (hN : 0 < N) (hu : ∀ i, u i < N) (g : Nat → ℚ) (ha : 0 < a) (hb : 0 < b) (hw1 : 1 ≤ w) (hh1 : 1 ≤ h) (hw : w ≤ 32767) (hh : h ≤ 32767)
    (F : Filled N a b n u) (hρ : ((w : ℚ) / a + 51 / 100) ^ 2 + ((h : ℚ) / b + 51 / 100) ^ 2 ≤ ρ ^ 2) :
    (∀ p ∈ genRandom (drawn N u g) n (0, 0), Alg.Unit01 p) ∧ ∀ x y : ℝ, 0 ≤ x → x ≤ w → 0 ≤ y → y ≤ h →
      ∃ p ∈ (genRandom (drawn N u g) n (0, 0)).map (groupPoint (rne 53) w h), ((p.x : ℝ) - x) ^ 2 + (p.y - y) ^ 2 ≤ (ρ : ℝ) ^ 2 := by
  have un : ∀ l, 0 ≤ (u l : ℚ) / N ∧ (u l : ℚ) / N ≤ 1 := fun l => ⟨by positivity, div_le_one_of_le₀ (by exact_mod_cast (hu l).le) (by positivity)⟩
  have e : genRandom (drawn N u g) n (0, 0) = (List.range n).map fun k => (⟨(u (2 * k) : ℚ) / N, (u (2 * k + 1) : ℚ) / N⟩ : NP) := by
    unfold genRandom
    rw [Int.toNat_natCast, randomPoints_drawn]
    simp only [Nat.zero_add]
  rw [e]
  refine ⟨fun p hp => ?_, fun x y x1 x2 y1 y2 => ?_⟩
  · obtain ⟨k, -, rfl⟩ := List.mem_map.mp hp
    exact ⟨un _, un _⟩
  · obtain ⟨k, hk, d⟩ := filled_near hN ha hb hw1 hh1 (f := fun k => groupPoint (rne 53) w h ⟨(u (2 * k) : ℚ) / N, (u (2 * k + 1) : ℚ) / N⟩)
      (fun k _ => groupPoint_near (rne_rnd (p := 53) (by norm_num)) hw hh (p := ⟨(u (2 * k) : ℚ) / N, (u (2 * k + 1) : ℚ) / N⟩) ⟨un _, un _⟩) F hρ x y x1 x2 y1 y2
    exact ⟨_, List.mem_map.mpr ⟨_, List.mem_map.mpr ⟨k, List.mem_range.mpr hk, rfl⟩, rfl⟩, d⟩

/-- **C107** (partial: IEEE arithmetic, images up to 6800000 pixels): cut the image into `a` columns and `b` rows, and let `ρ² ≥ (w / a + 51/100)² + (h / b + 51/100)²`.  Of the `N ^ (2 n)` vectors of
draws for `n` random points, at most `a b (N² - N² / a b) ^ n` are such that `Triangulate` returns a Delaunay triangulation of the points and the picture of it does not have a quality of
`(1 - 4 ρ / w) (1 - 4 ρ / h) - η - 1/50000`: the probability is at most `a b (1 - 1 / a b) ^ n`. -/
theorem c107_generate_partial (hN : 0 < N) (da : a ∣ N) (db : b ∣ N) (hw1 : 1 ≤ w) (hh1 : 1 ≤ h) (hw : w ≤ 32767) (hh : h ≤ 32767) (hwh : w * h ≤ 6800000) (hr : 0 < ρ) (mw : 4 * ρ ≤ w)
    (hρ : ((w : ℚ) / a + 51 / 100) ^ 2 + ((h : ℚ) / b + 51 / 100) ^ 2 ≤ ρ ^ 2) (E : Gentle (ofBytes (rne 53) w h f) (9 * ρ) η) :
    ways N (2 * n) (fun u => ∃ g T, triangulate lib (rne 53) w h (genRandom (drawn N u g) n (0, 0)) = some T ∧
      Tiling ((genRandom (drawn N u g) n (0, 0)).map (groupPoint (rne 53) w h)) T ∧
      ¬ ∃ out cs, trianglesOnImage (rne 53) z (ofBytes (rne 53) w h f) T = some out ∧ out.map Prod.snd = cs.map some ∧
        (1 - 4 * ρ / w) * (1 - 4 * ρ / h) - η - 1 / 50000 ≤ quality z (ofBytes (rne 53) w h f) T cs) ≤ a * b * (N ^ 2 - N / a * (N / b)) ^ n := by
  refine le_trans (ways_le hN fun u hu => ?_) (c104_boxes hN da db n)
  rintro ⟨g, T, hT, D, no⟩ F
  obtain ⟨un, net⟩ := drawn_dense hN hu g (Nat.pos_of_dvd_of_pos da hN) (Nat.pos_of_dvd_of_pos db hN) hw1 hh1 hw hh F hρ
  exact no (c105_exported_partial hw1 hh1 hw hh hwh un hT D hr mw net z f E)

/-- **C107**, points in general position (partial: as above): with a Delaunay library that reports no triangle twice, the probability that no four of the pixels are on a circle and the picture is poor
is at most `a b (1 - 1 / a b) ^ n`. -/
theorem c107_general_partial (L : LibOnce lib) (hN : 0 < N) (da : a ∣ N) (db : b ∣ N) (hw1 : 1 ≤ w) (hh1 : 1 ≤ h) (hw : w ≤ 32767) (hh : h ≤ 32767) (hwh : w * h ≤ 6800000) (hr : 0 < ρ)
    (mw : 4 * ρ ≤ w) (hρ : ((w : ℚ) / a + 51 / 100) ^ 2 + ((h : ℚ) / b + 51 / 100) ^ 2 ≤ ρ ^ 2) (E : Gentle (ofBytes (rne 53) w h f) (9 * ρ) η) :
    ways N (2 * n) (fun u => ∃ g, GeneralPosition (· ∈ (genRandom (drawn N u g) n (0, 0)).map (groupPoint (rne 53) w h)) ∧
      ¬ ∃ T out cs, triangulate lib (rne 53) w h (genRandom (drawn N u g) n (0, 0)) = some T ∧ trianglesOnImage (rne 53) z (ofBytes (rne 53) w h f) T = some out ∧
        out.map Prod.snd = cs.map some ∧ (1 - 4 * ρ / w) * (1 - 4 * ρ / h) - η - 1 / 50000 ≤ quality z (ofBytes (rne 53) w h f) T cs) ≤ a * b * (N ^ 2 - N / a * (N / b)) ^ n := by
  refine le_trans (ways_le hN fun u hu => ?_) (c104_boxes hN da db n)
  rintro ⟨g, G, no⟩ F
  obtain ⟨un, net⟩ := drawn_dense hN hu g (Nat.pos_of_dvd_of_pos da hN) (Nat.pos_of_dvd_of_pos db hN) hw1 hh1 hw hh F hρ
  exact no (c105_general_partial L hw1 hh1 hw hh hwh un G hr mw net z f E)

end

/-- **C107**, `DefaultAlgorithm` (partial: IEEE arithmetic, images up to 4096 pixels a side and 6800000 pixels): the probability that a run ever has best points in general position whose exported picture
is poor is at most `(a b (1 - 1 / a b) ^ n) ^ 400`. -/
theorem c107_default_partial {im : Source16} {n : Nat} {srt : Alg.Sorter} {z : ℚ} {bf : D → D → Bufs} {N a b : Nat} {lib : List Pt → List Nat} (L : LibOnce lib) (hN : 0 < N) (da : a ∣ N) (db : b ∣ N)
    (S : ∀ r : Source (Nat × Nat), r.OK → DefaultOK r im n srt) (hwh : im.maxX.toNat * im.maxY.toNat ≤ 6800000)
    {ρ η : ℚ} (hr : 0 < ρ) (hn : 18 * ρ < 3 * (side im.maxX.toNat im.maxY.toNat : ℚ) - 1) (mw : 4 * ρ ≤ (im.maxX.toNat : ℚ)) (G : Gentle (theImage im) (9 * ρ) η)
    (hρ : ((im.maxX.toNat : ℚ) / a + 51 / 100) ^ 2 + ((im.maxY.toNat : ℚ) / b + 51 / 100) ^ 2 ≤ ρ ^ 2) :
    ways N (2 * n * 400) (fun v => ∃ u g k A s, (∀ i < 2 * n * 400, u i = v i) ∧ (∀ i, u i < N) ∧ DefaultExec ieee srt z bf (drawn N u g) im n (0, 0) k A s ∧
      Regular (theImage im) A.best ∧ ¬ ∃ T out cs, triangulate lib (rne 53) im.maxX.toNat im.maxY.toNat A.best = some T ∧
        trianglesOnImage (rne 53) z (theImage im) T = some out ∧ out.map Prod.snd = cs.map some ∧
        (1 - 4 * ρ / im.maxX.toNat) * (1 - 4 * ρ / im.maxY.toNat) - η - 1 / 40000 ≤ quality z (theImage im) T cs) ≤ (a * b * (N ^ 2 - N / a * (N / b)) ^ n) ^ 400 := by
  refine le_trans (ways_le hN fun v _ => ?_) (c104_default_partial (z := z) (bf := bf) hN da db S hwh hr hn mw G hρ)
  rintro ⟨u, g, k, A, s, e, hu, E, C, no⟩
  refine ⟨u, g, k, A, s, e, hu, E, lt_of_not_ge fun le => no ?_⟩
  obtain ⟨T, out, cs, h1, h2, h3, h4⟩ := c98_default_partial L (S _ (drawn_ok hN hu g)) hwh E C
  exact ⟨T, out, cs, h1, h2, h3, by linarith⟩

/-! ### Cases -/

theorem seldom_one (n : Nat) (k : 10 * (1024 * 1023 ^ n) ≤ 1024 ^ n) :
    10 * (2 ^ 5 * 2 ^ 5 * ((2 ^ 53) ^ 2 - 2 ^ 53 / 2 ^ 5 * (2 ^ 53 / 2 ^ 5)) ^ n) ≤ (2 ^ 53) ^ (2 * n) := by
  have := seldom n 1 k
  rwa [pow_one, pow_one, Nat.mul_one] at this

/-- C107: 10000 random points on a grey image of 1000 x 1000 pixels.  With any library, at least nine draws in ten give points for which it does not return a Delaunay triangulation, or a picture with a
quality of 2/3 or more. -/
example (lib : List Pt → List Nat) : 10 * ways (2 ^ 53) (2 * 10000) (fun u => ∃ g T, triangulate lib (rne 53) 1000 1000 (genRandom (drawn (2 ^ 53) u g) (10000 : Nat) (0, 0)) = some T ∧
    Tiling ((genRandom (drawn (2 ^ 53) u g) (10000 : Nat) (0, 0)).map (groupPoint (rne 53) 1000 1000)) T ∧
    ¬ ∃ out cs, trianglesOnImage (rne 53) 0 (theImage greyLarge) T = some out ∧ out.map Prod.snd = cs.map some ∧ 2 / 3 ≤ quality 0 (theImage greyLarge) T cs) ≤ (2 ^ 53) ^ (2 * 10000) := by
  have c := c107_generate_partial (lib := lib) (z := 0) (n := 10000) (N := 2 ^ 53) (a := 2 ^ 5) (b := 2 ^ 5) (w := 1000) (h := 1000) (f := upperBytes greyLarge) (ρ := 45) (η := 0)
    (by positivity) (pow_dvd_pow 2 (by norm_num)) (pow_dvd_pow 2 (by norm_num)) (by norm_num) (by norm_num) (by norm_num) (by norm_num) (by norm_num) (by norm_num) (by norm_num)
    (by norm_num) (greyLarge_gentle _)
  refine le_trans (Nat.mul_le_mul_left _ (le_trans (ways_le (by positivity) ?_) c)) (seldom_one 10000 (by decide +kernel))
  rintro u - ⟨g, T, h1, h2, no⟩
  exact ⟨g, T, h1, h2, fun ⟨out, cs, o1, o2, o3⟩ => no ⟨out, cs, o1, o2, le_trans (by norm_num) o3⟩⟩

/-- The same for a Delaunay library: at least nine draws in ten give points that are not in general position or a picture with a quality of 2/3 or more. -/
example : 10 * ways (2 ^ 53) (2 * 10000) (fun u => ∃ g, GeneralPosition (· ∈ (genRandom (drawn (2 ^ 53) u g) (10000 : Nat) (0, 0)).map (groupPoint (rne 53) 1000 1000)) ∧
    ¬ ∃ T out cs, triangulate onceLib (rne 53) 1000 1000 (genRandom (drawn (2 ^ 53) u g) (10000 : Nat) (0, 0)) = some T ∧ trianglesOnImage (rne 53) 0 (theImage greyLarge) T = some out ∧
      out.map Prod.snd = cs.map some ∧ 2 / 3 ≤ quality 0 (theImage greyLarge) T cs) ≤ (2 ^ 53) ^ (2 * 10000) := by
  have c := c107_general_partial (L := onceLib_ok) (z := 0) (n := 10000) (N := 2 ^ 53) (a := 2 ^ 5) (b := 2 ^ 5) (w := 1000) (h := 1000) (f := upperBytes greyLarge) (ρ := 45) (η := 0)
    (by positivity) (pow_dvd_pow 2 (by norm_num)) (pow_dvd_pow 2 (by norm_num)) (by norm_num) (by norm_num) (by norm_num) (by norm_num) (by norm_num) (by norm_num) (by norm_num)
    (by norm_num) (greyLarge_gentle _)
  refine le_trans (Nat.mul_le_mul_left _ (le_trans (ways_le (by positivity) ?_) c)) (seldom_one 10000 (by decide +kernel))
  rintro u - ⟨g, G, no⟩
  exact ⟨g, G, fun ⟨T, out, cs, o0, o1, o2, o3⟩ => no ⟨T, out, cs, o0, o1, o2, le_trans (by norm_num) o3⟩⟩

/-- The same for `DefaultAlgorithm`: the probability of a run that ever has best points in general position with a picture of a quality below 2/3 is at most `10 ^ (-400)`. -/
example : 10 ^ 400 * ways (2 ^ 53) (2 * 10000 * 400) (fun v => ∃ u g k A s, (∀ i < 2 * 10000 * 400, u i = v i) ∧ (∀ i, u i < 2 ^ 53) ∧
    DefaultExec ieee someSorter 0 (fun _ _ => ⟨[], [], fun _ _ => [], fun _ => []⟩) (drawn (2 ^ 53) u g) greyLarge (10000 : Nat) (0, 0) k A s ∧ Regular (theImage greyLarge) A.best ∧
    ¬ ∃ T out cs, triangulate onceLib (rne 53) greyLarge.maxX.toNat greyLarge.maxY.toNat A.best = some T ∧ trianglesOnImage (rne 53) 0 (theImage greyLarge) T = some out ∧ out.map Prod.snd = cs.map some ∧
      2 / 3 ≤ quality 0 (theImage greyLarge) T cs) ≤ (2 ^ 53) ^ (2 * 10000 * 400) := by
  have c := c107_default_partial onceLib_ok (im := greyLarge) (n := 10000) (srt := someSorter) (z := 0) (bf := fun _ _ => ⟨[], [], fun _ _ => [], fun _ => []⟩) (N := 2 ^ 53) (a := 2 ^ 5)
    (b := 2 ^ 5) (by positivity) (pow_dvd_pow 2 (by norm_num)) (pow_dvd_pow 2 (by norm_num))
    (fun r hr => ⟨hr, fun _ _ => ⟨by simp [greyLarge], by simp [greyLarge], by simp [greyLarge]⟩, by decide, by decide, by decide, by norm_num, someSorter_ok⟩) (by decide) (ρ := 45) (η := 0)
    (by norm_num) (by change 18 * 45 < 3 * (side 1000 1000 : ℚ) - 1; unfold side; norm_num) (by change 4 * 45 ≤ ((1000 : ℕ) : ℚ); norm_num) (greyLarge_gentle _)
    (by change (((1000 : ℕ) : ℚ) / (2 ^ 5 : ℕ) + 51 / 100) ^ 2 + (((1000 : ℕ) : ℚ) / (2 ^ 5 : ℕ) + 51 / 100) ^ 2 ≤ 45 ^ 2; norm_num)
  have lo : (2 : ℚ) / 3 ≤ (1 - 4 * 45 / greyLarge.maxX.toNat) * (1 - 4 * 45 / greyLarge.maxY.toNat) - 0 - 1 / 40000 := by
    change (2 : ℚ) / 3 ≤ (1 - 4 * 45 / (1000 : ℕ)) * (1 - 4 * 45 / (1000 : ℕ)) - 0 - 1 / 40000
    norm_num
  refine le_trans (Nat.mul_le_mul_left _ (le_trans (ways_le (by positivity) ?_) c)) (seldom 10000 400 (by decide +kernel))
  rintro v - ⟨u, g, k, A, s, e1, e2, e3, C, no⟩
  exact ⟨u, g, k, A, s, e1, e2, e3, C, fun ⟨T, out, cs, o0, o1, o2, o3⟩ => no ⟨T, out, cs, o0, o1, o2, lo.trans o3⟩⟩

end Verif.Props

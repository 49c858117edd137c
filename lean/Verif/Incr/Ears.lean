import Verif.Incr.Insert

/-!
# Direction sort and ear list
-/

namespace Verif.Incr

open Verif.Tri

/-! ### Comparator and sort -/

/-- int16 differences between a hull point and the removed point are exact. -/
theorem diff16 {w h : Nat} (k : SizeOk w h) {a p : Pt} (ha : Ok w h a) (hp : InImg w h p) :
    w16 (a.x - p.x) = a.x - p.x ∧ w16 (a.y - p.y) = a.y - p.y := by
  have c := ha.close k hp
  have cx := abs_le.mp c.x
  have cy := abs_le.mp c.y
  exact ⟨w16_id (by omega) (by omega), w16_id (by omega) (by omega)⟩

theorem lower_iff (p a : Pt) : Lower (toP p) (toP a) ↔ a.x < p.x ∨ (a.x = p.x ∧ a.y < p.y) := by
  unfold Lower toP
  simp only [Int.cast_lt, Int.cast_inj]

theorem ori_int (p a b : Pt) : ori (toP p) (toP a) (toP b) =
    (((a.x - p.x) * (b.y - p.y) - (b.x - p.x) * (a.y - p.y) : Int) : ℚ) := by
  unfold ori toP; push_cast; ring

/-- The comparator is the order by angle, and panics only on equal directions. -/
theorem hullLess_spec {w h : Nat} (k : SizeOk w h) {a b p : Pt} (ha : Ok w h a) (hb : Ok w h b)
    (hp : InImg w h p) (na : a ≠ p) (nb : b ≠ p) (hd : ¬ SameDir (toP p) (toP b) (toP a)) :
    (hullLess p b a = some true ∧ AngLt (toP p) (toP b) (toP a)) ∨
    (hullLess p b a = some false ∧ AngLt (toP p) (toP a) (toP b)) := by
  obtain ⟨ax, ay⟩ := diff16 k ha hp
  obtain ⟨bx, bY⟩ := diff16 k hb hp
  have ca := ha.close k hp
  have cb := hb.close k hp
  have hdet := abs_le.mp (abs_sub_le' (abs_mul_le' ca.x cb.y) (abs_mul_le' cb.x ca.y))
  have hw : w64 ((a.x - p.x) * (b.y - p.y) - (b.x - p.x) * (a.y - p.y)) =
      (a.x - p.x) * (b.y - p.y) - (b.x - p.x) * (a.y - p.y) := w64_id (by omega) (by omega)
  unfold hullLess
  rw [ax, ay, bx, bY, hw]
  have oab := ori_int p a b
  have oba : ori (toP p) (toP b) (toP a) = - ori (toP p) (toP a) (toP b) := ori_swap23 _ _ _
  have na' : a.x ≠ p.x ∨ a.y ≠ p.y := by
    by_contra hn; push Not at hn; exact na (Pt.ext hn.1 hn.2)
  have nb' : b.x ≠ p.x ∨ b.y ≠ p.y := by
    by_contra hn; push Not at hn; exact nb (Pt.ext hn.1 hn.2)
  unfold AngLt
  rw [lower_iff, lower_iff, oba, oab]
  unfold SameDir at hd
  rw [oba, oab] at hd
  have hdot : ((toP b).x - (toP p).x) * ((toP a).x - (toP p).x) + ((toP b).y - (toP p).y) * ((toP a).y - (toP p).y)
      = (((b.x - p.x) * (a.x - p.x) + (b.y - p.y) * (a.y - p.y) : Int) : ℚ) := by
    unfold toP; push_cast; ring
  rw [hdot] at hd
  have hd' : ¬ ((a.x - p.x) * (b.y - p.y) - (b.x - p.x) * (a.y - p.y) = 0 ∧
      0 < (b.x - p.x) * (a.x - p.x) + (b.y - p.y) * (a.y - p.y)) := by
    rintro ⟨h1, h2⟩
    exact hd ⟨by rw [h1]; simp, by exact_mod_cast h2⟩
  have c1 : (0 : ℚ) < -(((a.x - p.x) * (b.y - p.y) - (b.x - p.x) * (a.y - p.y) : Int) : ℚ) ↔
      (a.x - p.x) * (b.y - p.y) - (b.x - p.x) * (a.y - p.y) < 0 := by
    rw [neg_pos]; exact_mod_cast Iff.rfl
  have c2 : (0 : ℚ) < (((a.x - p.x) * (b.y - p.y) - (b.x - p.x) * (a.y - p.y) : Int) : ℚ) ↔
      0 < (a.x - p.x) * (b.y - p.y) - (b.x - p.x) * (a.y - p.y) := by
    exact_mod_cast Iff.rfl
  rw [c1, c2]
  clear hd hdot c1 c2 oab oba hw hdet ca cb ax ay bx bY
  generalize hX : a.x - p.x = X at *
  generalize hY : a.y - p.y = Y at *
  generalize hU : b.x - p.x = U at *
  generalize hV : b.y - p.y = W at *
  have l1 : (a.x < p.x ∨ (a.x = p.x ∧ a.y < p.y)) ↔ (X < 0 ∨ (X = 0 ∧ Y < 0)) := by omega
  have l2 : (b.x < p.x ∨ (b.x = p.x ∧ b.y < p.y)) ↔ (U < 0 ∨ (U = 0 ∧ W < 0)) := by omega
  have l3 : decide (b.y < a.y) = decide (W < Y) := by
    apply decide_eq_decide.mpr; omega
  rw [l1, l2, l3]
  have na2 : X ≠ 0 ∨ Y ≠ 0 := by omega
  have nb2 : U ≠ 0 ∨ W ≠ 0 := by omega
  by_cases e1 : 0 ≤ X ∧ U < 0
  · rw [if_pos e1]
    left
    refine ⟨rfl, ?_⟩
    by_cases e : X = 0 ∧ Y < 0
    · right
      refine ⟨by omega, ?_⟩
      rw [e.1]
      have := mul_pos_of_neg_of_neg e1.2 e.2
      linarith
    · left; omega
  · rw [if_neg e1]
    by_cases e2 : X < 0 ∧ 0 ≤ U
    · rw [if_pos e2]
      right
      refine ⟨rfl, ?_⟩
      by_cases e : U = 0 ∧ W < 0
      · right
        refine ⟨by omega, ?_⟩
        rw [e.1]
        have := mul_pos_of_neg_of_neg e2.1 e.2
        linarith
      · left; omega
    · rw [if_neg e2]
      by_cases e3 : X = 0 ∧ U = 0
      · rw [if_pos e3]
        obtain ⟨rfl, rfl⟩ := e3
        have hneg : W * Y ≤ 0 := by
          by_contra hn
          exact hd' ⟨by ring, by linarith⟩
        have hYW : (Y < 0 ∧ 0 < W) ∨ (0 < Y ∧ W < 0) := by
          rcases lt_trichotomy Y 0 with y | y | y
          · left
            refine ⟨y, ?_⟩
            rcases lt_trichotomy W 0 with z | z | z
            · have := mul_pos_of_neg_of_neg z y; linarith
            · omega
            · exact z
          · omega
          · right
            refine ⟨y, ?_⟩
            rcases lt_trichotomy W 0 with z | z | z
            · exact z
            · omega
            · have := mul_pos z y; linarith
        rw [if_pos (by omega)]
        rcases hYW with ⟨y, z⟩ | ⟨y, z⟩
        · right
          refine ⟨by rw [decide_eq_false (by omega)], Or.inl (by omega)⟩
        · left
          refine ⟨by rw [decide_eq_true (by omega)], Or.inl (by omega)⟩
      · rw [if_neg e3]
        simp only
        have hz : X * W - U * Y ≠ 0 := by
          intro h0
          apply hd'
          refine ⟨h0, ?_⟩
          -- both on the same closed side and parallel
          have side : (0 ≤ X ∧ 0 ≤ U) ∨ (X < 0 ∧ U < 0) := by omega
          have hpar : X * W = U * Y := by omega
          have hXne : X ≠ 0 := by
            intro hx
            subst hx
            rcases mul_eq_zero.mp (by linarith : U * Y = 0) with hu | hy
            · exact e3 ⟨rfl, hu⟩
            · omega
          have hUne : U ≠ 0 := by
            intro hx
            subst hx
            rcases mul_eq_zero.mp (by linarith : X * W = 0) with hu | hy
            · exact hXne hu
            · omega
          have hXU : 0 < U * X := by
            rcases side with ⟨a1, a2⟩ | ⟨a1, a2⟩
            · exact mul_pos (by omega) (by omega)
            · exact mul_pos_of_neg_of_neg a2 a1
          have hWY : 0 ≤ (W * Y) * (U * X) := by
            have : (W * Y) * (U * X) = (X * W) * (U * Y) := by ring
            rw [this, hpar]; exact mul_self_nonneg _
          have : 0 ≤ W * Y := by
            by_contra hn
            have := mul_neg_of_neg_of_pos (not_le.mp hn) hXU
            linarith
          linarith
        rcases lt_or_gt_of_ne hz with hlt | hgt
        · rw [if_pos hlt]
          left
          refine ⟨rfl, ?_⟩
          by_cases lu : (U < 0 ∨ U = 0 ∧ W < 0)
          · by_cases lx : (X < 0 ∨ X = 0 ∧ Y < 0)
            · exact Or.inr ⟨by simp only [lu, lx], hlt⟩
            · exact Or.inl ⟨lu, lx⟩
          · by_cases lx : (X < 0 ∨ X = 0 ∧ Y < 0)
            · exfalso
              have hX0 : X = 0 ∧ Y < 0 := by omega
              have hU0 : 0 < U := by omega
              rw [hX0.1] at hlt
              have := mul_pos_of_neg_of_neg hX0.2 (neg_neg_of_pos hU0)
              linarith
            · exact Or.inr ⟨by simp only [lu, lx], hlt⟩
        · rw [if_neg (by omega), if_pos hgt]
          right
          refine ⟨rfl, ?_⟩
          by_cases lx : (X < 0 ∨ X = 0 ∧ Y < 0)
          · by_cases lu : (U < 0 ∨ U = 0 ∧ W < 0)
            · exact Or.inr ⟨by simp only [lu, lx], hgt⟩
            · exact Or.inl ⟨lx, lu⟩
          · by_cases lu : (U < 0 ∨ U = 0 ∧ W < 0)
            · exfalso
              have hU0 : U = 0 ∧ W < 0 := by omega
              have hX0 : 0 < X := by omega
              rw [hU0.1] at hgt
              have := mul_pos_of_neg_of_neg hU0.2 (neg_neg_of_pos hX0)
              linarith
            · exact Or.inr ⟨by simp only [lu, lx], hgt⟩

/-- Sorting sound elements. -/
theorem hullInsert_spec {p v : Pt} {R : Pt → Pt → Prop} {L : List Pt} (hL : L.Pairwise R)
    (cmp : ∀ u ∈ L, (hullLess p v u = some true ∧ R v u) ∨ (hullLess p v u = some false ∧ R u v))
    (tr : ∀ x ∈ L, ∀ y ∈ L, R v x → R x y → R v y) :
    (hullInsert p v L).Perm (v :: L) ∧ (hullInsert p v L).Pairwise R := by
  induction L with
  | nil => simp [hullInsert]
  | cons u L ih =>
    obtain ⟨h1, h2⟩ := List.pairwise_cons.mp hL
    unfold hullInsert
    rcases cmp u (by simp) with ⟨c1, c2⟩ | ⟨c1, c2⟩
    · rw [if_pos c1]
      refine ⟨List.Perm.refl _, List.Pairwise.cons ?_ hL⟩
      intro y hy
      rcases List.mem_cons.mp hy with rfl | hy
      · exact c2
      · exact tr u (by simp) y (by simp [hy]) c2 (h1 y hy)
    · rw [if_neg (by rw [c1]; simp)]
      obtain ⟨i1, i2⟩ := ih h2 (fun u hu => cmp u (by simp [hu]))
        (fun x hx y hy => tr x (by simp [hx]) y (by simp [hy]))
      refine ⟨(i1.cons u).trans (List.Perm.swap v u L), List.Pairwise.cons ?_ i2⟩
      intro y hy
      rcases List.mem_cons.mp (i1.mem_iff.mp hy) with rfl | hy
      · exact c2
      · exact h1 y hy

theorem hullSort_spec {w h : Nat} (k : SizeOk w h) {p : Pt} (hp : InImg w h p) {L : List Pt} (hn : L.Nodup)
    (hok : ∀ u ∈ L, Ok w h u ∧ u ≠ p)
    (hd : ∀ u ∈ L, ∀ v ∈ L, u ≠ v → ¬ SameDir (toP p) (toP u) (toP v)) :
    ∃ M, hullSort p L = some M ∧ M.Perm L ∧ M.Pairwise (fun u v => AngLt (toP p) (toP u) (toP v)) := by
  have cmp : ∀ u ∈ L, ∀ v ∈ L, u ≠ v → (hullLess p u v = some true ∧ AngLt (toP p) (toP u) (toP v)) ∨
      (hullLess p u v = some false ∧ AngLt (toP p) (toP v) (toP u)) := by
    intro u hu v hv huv
    exact hullLess_spec k (hok v hv).1 (hok u hu).1 hp (hok v hv).2 (hok u hu).2 (hd u hu v hv huv)
  have hne : ∀ u ∈ L, toP u ≠ toP p := fun u hu he => (hok u hu).2 (toP_inj he)
  have hall : L.all (fun u => L.all (fun v => u == v || ((hullLess p u v).isSome && (hullLess p v u).isSome))) = true := by
    rw [List.all_eq_true]
    intro u hu
    rw [List.all_eq_true]
    intro v hv
    by_cases huv : u = v
    · simp [huv]
    · rcases cmp u hu v hv huv with ⟨c, _⟩ | ⟨c, _⟩ <;>
        rcases cmp v hv u hu (Ne.symm huv) with ⟨c', _⟩ | ⟨c', _⟩ <;> simp [c, c']
  unfold hullSort
  rw [if_pos hall]
  refine ⟨_, rfl, ?_⟩
  clear hall hd
  suffices hgen : ∀ K : List Pt, (∀ u ∈ K, u ∈ L) → K.Nodup →
      (K.foldr (hullInsert p) []).Perm K ∧
        (K.foldr (hullInsert p) []).Pairwise (fun u v => AngLt (toP p) (toP u) (toP v)) from
    hgen L (fun u hu => hu) hn
  intro K
  induction K with
  | nil => intro _ _; simp
  | cons u K ih =>
    intro hK hKn
    obtain ⟨hu, hKn'⟩ := List.nodup_cons.mp hKn
    obtain ⟨i1, i2⟩ := ih (fun v hv => hK v (by simp [hv])) hKn'
    have hm : ∀ v ∈ K.foldr (hullInsert p) [], v ∈ L ∧ u ≠ v := by
      intro v hv
      have := i1.mem_iff.mp hv
      exact ⟨hK v (by simp [this]), by rintro rfl; exact hu this⟩
    have huL := hK u (by simp)
    obtain ⟨j1, j2⟩ := hullInsert_spec (p := p) (v := u) i2
      (fun v hv => cmp u huL v (hm v hv).1 (hm v hv).2)
      (fun x hx y hy a b => AngLt.trans (hne u huL) (hne x (hm x hx).1) (hne y (hm y hy).1) a b)
    exact ⟨j1.trans (i1.cons u), j2⟩

/-! ### The ear list -/

/-- Consecutive ears overlap. -/
def Consist (E : List Ear) : Prop := ∀ e e', (e, e') ∈ cyc E → e.b = e'.a ∧ e.c = e'.b

/-- Scores are up to date. -/
def Scored (fl : ℚ → ℚ) (p : Pt) (E : List Ear) : Prop := ∀ e ∈ E, e.score = calculateScore fl e.a e.b e.c p

theorem Consist.rot {E E' : List Ear} (h : Consist E) (hr : E ~r E') : Consist E' :=
  fun e e' he => h e e' ((cyc_isRotated hr).mem_iff.mpr he)

theorem path_zip {α} (a : α) (l : List α) : path a l = (a :: l).zip l := by
  induction l generalizing a with
  | nil => rfl
  | cons b l ih => simp [path, ih]

theorem cyc_zip {α} (l : List α) : cyc l = l.zip (l.rotate 1) := by
  cases l with
  | nil => rfl
  | cons a l =>
    rw [cyc, path_zip]
    have : (a :: l).rotate 1 = l ++ [a] := by simp [List.rotate_cons_succ]
    rw [this, ← List.cons_append]
    have := List.zip_append (l₁ := a :: l) (r₁ := [a]) (l₂ := l ++ [a]) (r₂ := []) (by simp)
    simpa using this

theorem cyc_index {α} {l : List α} {u v : α} (h : (u, v) ∈ cyc l) :
    ∃ i, i < l.length ∧ l[i]? = some u ∧ l[(i + 1) % l.length]? = some v := by
  rw [cyc_zip, List.mem_iff_getElem?] at h
  obtain ⟨i, hi⟩ := h
  rw [List.getElem?_zip_eq_some] at hi
  obtain ⟨h1, h2⟩ := hi
  have hlt := (List.getElem?_eq_some_iff.mp h1).1
  refine ⟨i, hlt, h1, ?_⟩
  rw [List.getElem?_rotate hlt] at h2
  exact h2

theorem initEars_get (fl : ℚ → ℚ) (p : Pt) (hull : List Pt) :
    (initEars fl p hull).length = hull.length ∧ (initEars fl p hull).map (·.a) = hull ∧
    ∀ i (hi : i < hull.length), (initEars fl p hull)[i]? =
      some (mkEar fl p hull[i] (hull[(i + 1) % hull.length]'(Nat.mod_lt _ (by omega)))
        (hull[(i + 2) % hull.length]'(Nat.mod_lt _ (by omega)))) := by
  have key : initEars fl p hull = (List.range hull.length).map (fun i =>
      mkEar fl p (hull.getD i ⟨0, 0⟩) (hull.getD ((i + 1) % hull.length) ⟨0, 0⟩)
        (hull.getD ((i + 2) % hull.length) ⟨0, 0⟩)) := by
    unfold initEars
    rw [← List.filterMap_eq_map]
    apply List.filterMap_congr
    intro i hi
    rw [List.mem_range] at hi
    have h1 : (i + 1) % hull.length < hull.length := Nat.mod_lt _ (by omega)
    have h2 : (i + 2) % hull.length < hull.length := Nat.mod_lt _ (by omega)
    simp [List.getElem?_eq_getElem hi, List.getElem?_eq_getElem h1, List.getElem?_eq_getElem h2,
      List.getD_eq_getElem?_getD]
  rw [key]
  refine ⟨by simp, ?_, ?_⟩
  · rw [List.map_map]
    apply List.ext_getElem
    · simp
    · intro i h1 h2
      simp [mkEar, List.getD_eq_getElem?_getD, List.getElem?_eq_getElem h2]
  · intro i hi
    have h1 : (i + 1) % hull.length < hull.length := Nat.mod_lt _ (by omega)
    have h2 : (i + 2) % hull.length < hull.length := Nat.mod_lt _ (by omega)
    rw [List.getElem?_map, List.getElem?_range hi]
    simp [List.getD_eq_getElem?_getD, List.getElem?_eq_getElem hi, List.getElem?_eq_getElem h1,
      List.getElem?_eq_getElem h2]

theorem initEars_consist (fl : ℚ → ℚ) (p : Pt) (hull : List Pt) : Consist (initEars fl p hull) := by
  obtain ⟨hl, _, hg⟩ := initEars_get fl p hull
  intro e e' he
  obtain ⟨i, hi, h1, h2⟩ := cyc_index he
  rw [hl] at hi h2
  have hm : (i + 1) % hull.length < hull.length := Nat.mod_lt _ (by omega)
  rw [hg i hi] at h1
  rw [hg _ hm] at h2
  cases h1
  cases h2
  simp only [mkEar]
  have e1 : ((i + 1) % hull.length + 1) % hull.length = (i + 2) % hull.length := by
    rw [Nat.mod_add_mod]
  exact ⟨trivial, by simp only [e1]⟩

theorem initEars_scored (fl : ℚ → ℚ) (p : Pt) (hull : List Pt) : Scored fl p (initEars fl p hull) := by
  intro e he
  unfold initEars at he
  rw [List.mem_filterMap] at he
  obtain ⟨i, _, hi⟩ := he
  simp only [Option.bind_eq_bind, Option.bind_eq_some_iff] at hi
  obtain ⟨a, _, b, _, c, _, h⟩ := hi
  cases h
  rfl

/-! ### Choosing the ear -/

theorem lowestEar_spec (l : List Ear) : ∀ (i : Nat) (low : Option ℚ) (best : Nat),
    (lowestEar l i low best = best ∧ ∀ e ∈ l, scoreLt e.score low = false) ∨
    (∃ k e, lowestEar l i low best = i + k ∧ l[k]? = some e ∧ scoreLt e.score low = true ∧
      ∀ e' ∈ l, scoreLt e'.score e.score = false) := by
  induction l with
  | nil => intro i low best; left; simp [lowestEar]
  | cons e l ih =>
    intro i low best
    unfold lowestEar
    by_cases h : scoreLt e.score low = true
    · rw [if_pos h]
      right
      rcases ih (i + 1) e.score i with ⟨h1, h2⟩ | ⟨k, f, h1, h2, h3, h4⟩
      · refine ⟨0, e, by simpa using h1, by simp, h, ?_⟩
        intro e' he'
        rcases List.mem_cons.mp he' with rfl | he'
        · cases e'.score <;> simp [scoreLt]
        · exact h2 e' he'
      · refine ⟨k + 1, f, by rw [h1]; omega, by simpa using h2, ?_, ?_⟩
        · cases hf : f.score with
          | none => rw [hf] at h3; simp [scoreLt] at h3
          | some x =>
            rw [hf] at h3
            cases he : e.score with
            | none => rw [he] at h; simp [scoreLt] at h
            | some y =>
              rw [he] at h3 h
              cases low with
              | none => simp [scoreLt]
              | some z =>
                simp only [scoreLt, decide_eq_true_eq] at h3 h ⊢
                exact h3.trans h
        · intro e' he'
          rcases List.mem_cons.mp he' with rfl | he'
          · cases hf : f.score with
            | none => rw [hf] at h3; simp [scoreLt] at h3
            | some x =>
              rw [hf] at h3
              cases he : e'.score with
              | none => simp [scoreLt]
              | some y =>
                rw [he] at h3
                simp only [scoreLt, decide_eq_true_eq, decide_eq_false_iff_not] at h3 ⊢
                exact not_lt.mpr h3.le
          · exact h4 e' he'
    · rw [if_neg h]
      rcases ih (i + 1) low best with ⟨h1, h2⟩ | ⟨k, f, h1, h2, h3, h4⟩
      · left
        refine ⟨h1, ?_⟩
        intro e' he'
        rcases List.mem_cons.mp he' with rfl | he'
        · simpa using h
        · exact h2 e' he'
      · right
        refine ⟨k + 1, f, by rw [h1]; omega, by simpa using h2, h3, ?_⟩
        intro e' he'
        rcases List.mem_cons.mp he' with rfl | he'
        · cases hf : f.score with
          | none => rw [hf] at h3; simp [scoreLt] at h3
          | some x =>
            rw [hf] at h3
            cases he : e'.score with
            | none => simp [scoreLt]
            | some y =>
              rw [he] at h
              cases low with
              | none => simp [scoreLt] at h
              | some z =>
                simp only [scoreLt, decide_eq_true_eq, decide_eq_false_iff_not] at h h3 ⊢
                intro hyx
                exact h (hyx.trans h3)
        · exact h4 e' he'

/-! ### Cutting the ear -/

theorem cutEar_spec (fl : ℚ → ℚ) (p : Pt) {E : List Ear} {i : Nat} {e : Ear} (hl : 3 ≤ E.length)
    (hi : E[i]? = some e) :
    ∃ af bf R, E ~r e :: af :: (R ++ [bf]) ∧ ∃ E', cutEar fl p E i = some E' ∧
      E' ~r mkEar fl p e.a af.b af.c :: (R ++ [mkEar fl p bf.a bf.b e.c]) := by
  obtain ⟨L1, L2, rfl, rfl⟩ := split_at hi
  unfold cutEar
  rw [hi]
  simp only [Option.bind_eq_bind, Option.bind_some]
  rcases List.eq_nil_or_concat L1 with rfl | ⟨X, bf, rfl⟩
  · -- first position
    simp only [List.nil_append, List.length_cons] at hl ⊢
    obtain ⟨af, R, bf, rfl⟩ : ∃ af R bf, L2 = af :: (R ++ [bf]) := by
      match L2, hl with
      | af :: b :: L, _ =>
        rcases List.eq_nil_or_concat (b :: L) with h | ⟨R, bf, h⟩
        · cases h
        · exact ⟨af, R, bf, by rw [h]; simp⟩
    refine ⟨af, bf, R, List.IsRotated.refl _, ?_⟩
    have hb : (e :: af :: (R ++ [bf]))[(e :: af :: (R ++ [bf])).length - 1]? = some bf := by
      rw [← List.getLast?_eq_getElem?]
      rw [show e :: af :: (R ++ [bf]) = (e :: af :: R) ++ [bf] by simp]
      exact List.getLast?_concat
    have hs : (e :: af :: (R ++ [bf])).set ((e :: af :: (R ++ [bf])).length - 1) (mkEar fl p bf.a bf.b e.c)
        = e :: af :: (R ++ [mkEar fl p bf.a bf.b e.c]) := by
      rw [show e :: af :: (R ++ [bf]) = (e :: af :: R) ++ [bf] by simp,
        List.set_append_right _ _ (by simp)]
      simp
    simp only [List.length_nil, if_true] at hb hs ⊢
    rw [show (e :: af :: (R ++ [bf])).length = (af :: (R ++ [bf])).length + 1 by simp] at hb hs
    rw [hb]
    simp only [Option.bind_some]
    rw [hs]
    have hmod : (0 + 1) % ((af :: (R ++ [bf])).length + 1) = 1 := by
      rw [Nat.mod_eq_of_lt (by simp)]
    rw [hmod]
    simp only [List.getElem?_cons_succ, List.getElem?_cons_zero, Option.bind_some]
    exact ⟨_, rfl, List.IsRotated.refl _⟩
  · rw [List.concat_eq_append] at *
    rcases L2 with _ | ⟨af, Y⟩
    · -- last position
      obtain ⟨af, R, rfl⟩ : ∃ af R, X = af :: R := by
        match X with
        | [] => simp at hl
        | af :: R => exact ⟨af, R, rfl⟩
      refine ⟨af, bf, R, ?_, ?_⟩
      · have := List.isRotated_append (l := af :: R ++ [bf]) (l' := [e])
        simpa using this
      · have hne : (af :: R ++ [bf]).length ≠ 0 := by simp
        rw [if_neg hne]
        have hb : (af :: R ++ [bf] ++ [e])[(af :: R ++ [bf]).length - 1]? = some bf := by
          rw [List.getElem?_append_left (by simp)]
          simp
        have hs : (af :: R ++ [bf] ++ [e]).set ((af :: R ++ [bf]).length - 1) (mkEar fl p bf.a bf.b e.c) =
            af :: R ++ [mkEar fl p bf.a bf.b e.c] ++ [e] := by
          rw [List.set_append_left _ _ (by simp), List.set_append_right _ _ (by simp)]
          simp
        rw [hb]
        simp only [Option.bind_some]
        rw [hs]
        have hmod : ((af :: R ++ [bf]).length + 1) % (af :: R ++ [bf] ++ [e]).length = 0 := by
          simp
        rw [hmod]
        simp only [List.cons_append, List.getElem?_cons_zero, Option.bind_some]
        refine ⟨_, rfl, ?_⟩
        rw [List.set_cons_zero]
        have : (mkEar fl p e.a af.b af.c :: (R ++ [mkEar fl p bf.a bf.b e.c] ++ [e])).eraseIdx
            (af :: (R ++ [bf])).length = mkEar fl p e.a af.b af.c :: (R ++ [mkEar fl p bf.a bf.b e.c]) := by
          rw [show mkEar fl p e.a af.b af.c :: (R ++ [mkEar fl p bf.a bf.b e.c] ++ [e]) =
            (mkEar fl p e.a af.b af.c :: (R ++ [mkEar fl p bf.a bf.b e.c])) ++ [e] by simp,
            List.eraseIdx_append_of_length_le (by simp)]
          simp
        rw [this]
    · -- inner position
      refine ⟨af, bf, Y ++ X, ?_, ?_⟩
      · have := List.isRotated_append (l := X ++ [bf]) (l' := e :: af :: Y)
        simpa using this
      · have hne : (X ++ [bf]).length ≠ 0 := by simp
        rw [if_neg hne]
        have hb : (X ++ [bf] ++ e :: af :: Y)[(X ++ [bf]).length - 1]? = some bf := by
          rw [List.getElem?_append_left (by simp)]
          simp
        have hs : (X ++ [bf] ++ e :: af :: Y).set ((X ++ [bf]).length - 1) (mkEar fl p bf.a bf.b e.c) =
            X ++ [mkEar fl p bf.a bf.b e.c] ++ e :: af :: Y := by
          rw [List.set_append_left _ _ (by simp), List.set_append_right _ _ (by simp)]
          simp
        rw [hb]
        simp only [Option.bind_some]
        rw [hs]
        have hmod : ((X ++ [bf]).length + 1) % (X ++ [bf] ++ e :: af :: Y).length = (X ++ [bf]).length + 1 := by
          apply Nat.mod_eq_of_lt; simp only [List.length_append, List.length_cons, List.length_nil]; omega
        rw [hmod]
        have hlen : (X ++ [bf]).length = (X ++ [mkEar fl p bf.a bf.b e.c]).length := by simp
        rw [hlen]
        have ha : (X ++ [mkEar fl p bf.a bf.b e.c] ++ e :: af :: Y)[(X ++ [mkEar fl p bf.a bf.b e.c]).length + 1]? = some af := by
          rw [List.getElem?_append_right (by omega)]
          simp
        rw [ha]
        simp only [Option.bind_some]
        refine ⟨_, rfl, ?_⟩
        have hs2 : (X ++ [mkEar fl p bf.a bf.b e.c] ++ e :: af :: Y).set ((X ++ [mkEar fl p bf.a bf.b e.c]).length + 1)
            (mkEar fl p e.a af.b af.c) = X ++ [mkEar fl p bf.a bf.b e.c] ++ e :: mkEar fl p e.a af.b af.c :: Y := by
          rw [List.set_append_right _ _ (by omega)]
          simp
        rw [hs2, List.eraseIdx_append_of_length_le (by omega), Nat.sub_self, List.eraseIdx_cons_zero]
        have := List.isRotated_append (l := X ++ [mkEar fl p bf.a bf.b e.c]) (l' := mkEar fl p e.a af.b af.c :: Y)
        simpa using this

theorem path_last {α} (x : α) (R : List α) (y y' : α) {u v : α} (h : (u, v) ∈ path x (R ++ [y'])) :
    (u, v) ∈ path x (R ++ [y]) ∨ (v = y' ∧ (u, y) ∈ path x (R ++ [y])) := by
  induction R generalizing x with
  | nil =>
    simp only [List.nil_append, path, List.mem_cons, Prod.mk.injEq, List.not_mem_nil, or_false] at h
    right
    rw [h.1, h.2]; simp [path]
  | cons z R ih =>
    simp only [List.cons_append, path, List.mem_cons, Prod.mk.injEq] at h ⊢
    rcases h with h | h
    · left; left; exact h
    · rcases ih z h with h | h
      · left; right; exact h
      · right; exact ⟨h.1, Or.inr h.2⟩

theorem Consist.cut {fl : ℚ → ℚ} {p : Pt} {e af bf : Ear} {R : List Ear} (hR : R ≠ [])
    (h : Consist (e :: af :: (R ++ [bf]))) :
    Consist (mkEar fl p e.a af.b af.c :: (R ++ [mkEar fl p bf.a bf.b e.c])) := by
  obtain ⟨r, R, rfl⟩ : ∃ r R', R = r :: R' := by
    cases R with
    | nil => exact (hR rfl).elim
    | cons r R => exact ⟨r, R, rfl⟩
  have hall : ∀ x y, (x, y) ∈ path e (af :: (r :: R ++ [bf]) ++ [e]) → x.b = y.a ∧ x.c = y.b := h
  simp only [List.cons_append, path, List.mem_cons, Prod.mk.injEq] at hall
  rw [List.append_assoc] at hall
  have h0 := hall e af (Or.inl ⟨rfl, rfl⟩)
  have h1 := hall af r (Or.inr (Or.inl ⟨rfl, rfl⟩))
  have hin : ∀ x y, (x, y) ∈ path r (R ++ [bf]) → x.b = y.a ∧ x.c = y.b := by
    intro x y hxy
    refine hall x y (Or.inr (Or.inr ?_))
    rw [List.singleton_append, path_append]
    exact List.mem_append_left _ hxy
  have hlast : bf.b = e.a ∧ bf.c = e.b := by
    refine hall bf e (Or.inr (Or.inr ?_))
    rw [List.singleton_append, path_append]
    exact List.mem_append_right _ (by simp [path])
  intro x y hxy
  simp only [cyc, List.cons_append, path, List.mem_cons, Prod.mk.injEq] at hxy
  rw [List.append_assoc, List.singleton_append, path_append] at hxy
  rcases hxy with ⟨rfl, rfl⟩ | hxy
  · simp only [mkEar]; exact h1
  · rcases List.mem_append.mp hxy with hxy | hxy
    · rcases path_last r R bf _ hxy with h2 | ⟨rfl, h2⟩
      · exact hin x y h2
      · have := hin x bf h2
        simpa [mkEar] using this
    · simp only [path, List.mem_cons, Prod.mk.injEq, List.not_mem_nil, or_false] at hxy
      obtain ⟨rfl, rfl⟩ := hxy
      simp only [mkEar]
      exact ⟨hlast.1, h0.2⟩

end Verif.Incr

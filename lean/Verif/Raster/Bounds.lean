import Verif.Raster.Exact

/-!
# Every call of the rasterizers stays inside the image
-/

namespace Verif.Raster

open Verif.Incr Verif.Float Verif.Tri Verif.Spec

/-- A call for rows `lo <= y < hi` and columns `0 <= x < W`. -/
def EvIn (lo hi W : Int) (bs : Nat) : Ev → Prop
  | .line x0 x1 y => lo ≤ y ∧ y < hi ∧ 0 ≤ x0 ∧ x0 ≤ W ∧ 0 ≤ x1 ∧ x1 ≤ W
  | .block x y => lo ≤ y ∧ y + bs ≤ hi ∧ 0 ≤ x ∧ x + bs ≤ W

/-- A line that does not run backwards. -/
def Ev.Fwd : Ev → Prop
  | .line x0 x1 _ => x0 ≤ x1
  | .block _ _ => True

/-- The edges stay between 0 and `W`. -/
def EdgeIn (f : Int → ℚ) (lo hi W : Int) : Prop := ∀ r, lo ≤ r → r < hi → 0 ≤ trunc (f r) ∧ trunc (f r) ≤ W

theorem EvIn.mono {lo hi lo' hi' W : Int} {bs : Nat} {e : Ev} (h : EvIn lo hi W bs e) (h1 : lo' ≤ lo) (h2 : hi ≤ hi') :
    EvIn lo' hi' W bs e := by
  cases e <;> simp only [EvIn] at * <;> omega

theorem blockRun_in {bs : Nat} {minX : ℚ} {y lo hi W : Int} (hy : lo ≤ y) (hy' : y + bs ≤ hi) (hW : trunc minX ≤ W) :
    ∀ (n : Nat) (x : Int), 0 ≤ x → ∀ e ∈ (blockRun bs minX y n x).1, EvIn lo hi W bs e ∧ e.Fwd := by
  intro n
  induction n with
  | zero => intro x _ e he; simp [blockRun] at he
  | succ n ih =>
    intro x hx e he
    simp only [blockRun] at he
    split at he
    · rename_i hlt
      rcases List.mem_cons.mp he with rfl | he
      · have := le_trunc hlt.le
        exact ⟨by simp only [EvIn]; omega, trivial⟩
      · exact ih _ (by omega) e he
    · simp at he

theorem group_in {L R : Int → ℚ} {bs : Nat} (hb : 0 < bs) {rs : List Int} {i top yb lo hi W : Int} {es : List Ev}
    (h : group L R bs rs i top yb = some es) (hr : ∀ r ∈ rs, lo ≤ r ∧ r < hi) (hi' : lo ≤ i ∧ i < hi) (ht : lo ≤ top ∧ top < hi)
    (hyb : lo ≤ yb ∧ yb + bs ≤ hi) (bL : EdgeIn L lo hi W) (bR : EdgeIn R lo hi W)
    (hL : ∀ r ∈ rs, L r ≤ max (L i) (L top)) (hR : ∀ r ∈ rs, min (R i) (R top) ≤ R r) :
    ∀ e ∈ es, EvIn lo hi W bs e ∧ e.Fwd := by
  unfold group at h
  simp only at h
  split at h
  · cases h
  · rename_i hc
    simp only [Option.some.injEq] at h
    have hM : 0 ≤ trunc (max (L i) (L top)) ∧ trunc (max (L i) (L top)) ≤ W := by
      rcases max_choice (L i) (L top) with k | k <;> rw [k]
      · exact bL i hi'.1 hi'.2
      · exact bL top ht.1 ht.2
    have hm : 0 ≤ trunc (min (R i) (R top)) ∧ trunc (min (R i) (R top)) ≤ W := by
      rcases min_choice (R i) (R top) with k | k <;> rw [k]
      · exact bR i hi'.1 hi'.2
      · exact bR top ht.1 ht.2
    generalize max (L i) (L top) = M at *
    generalize min (R i) (R top) = m at *
    obtain ⟨b1, b2, -⟩ := blockRun_spec bs hb m yb (⌈m⌉ - trunc M).toNat (trunc M) 0 0
    have b2' := le_trunc (b2 (by push_cast at hc; have : (0 : ℚ) ≤ bs := by positivity
                                 linarith))
    intro e he
    rw [← h] at he
    rcases List.mem_append.mp he with he | he
    · rcases List.mem_append.mp he with he | he
      · obtain ⟨r, hr', rfl⟩ := List.mem_map.mp he
        have := hr r hr'
        have := bL r this.1 this.2
        have := trunc_mono (hL r hr')
        simp only [EvIn, Ev.Fwd]; omega
      · exact blockRun_in hyb.1 hyb.2 hm.2 _ _ hM.1 e he
    · obtain ⟨r, hr', rfl⟩ := List.mem_map.mp he
      have := hr r hr'
      have := bR r this.1 this.2
      have := trunc_mono (hR r hr')
      simp only [EvIn, Ev.Fwd]; omega

/-- Lines between two edges. -/
theorem line_in {L R : Int → ℚ} {bs : Nat} {lo hi W r : Int} (bL : EdgeIn L lo hi W) (bR : EdgeIn R lo hi W) (h1 : lo ≤ r) (h2 : r < hi) :
    EvIn lo hi W bs (.line (trunc (L r)) (trunc (R r)) r) := by
  have := bL r h1 h2
  have := bR r h1 h2
  simp only [EvIn]; omega

theorem up_in {L R : Int → ℚ} {bs : Nat} (hb : 0 < bs) (hL : Mono L) (hR : Mono R) {y2 hi W : Int}
    (hv : ∀ r, r ≤ y2 → R r ≤ L r) (bL : EdgeIn L (y2 + 1) hi W) (bR : EdgeIn R (y2 + 1) hi W) (n : Nat) :
    ∀ (i : Int), i < hi → ∀ e ∈ (upLoop L R bs y2 n i).1 ++ upLines L R y2 (upLoop L R bs y2 n i).2,
    EvIn (y2 + 1) hi W bs e ∧ ((∀ r, y2 < r → r < hi → trunc (L r) ≤ trunc (R r)) → e.Fwd) := by
  have lines : ∀ i : Int, i < hi → ∀ e ∈ upLines L R y2 i, EvIn (y2 + 1) hi W bs e ∧
      ((∀ r, y2 < r → r < hi → trunc (L r) ≤ trunc (R r)) → e.Fwd) := by
    intro i hi' e he
    unfold upLines at he
    obtain ⟨r, hr, rfl⟩ := List.mem_map.mp he
    rw [List.mem_reverse, mem_rows] at hr
    exact ⟨line_in bL bR (by omega) (by omega), fun h => h r (by omega) (by omega)⟩
  induction n with
  | zero => intro i hi' e he; simp only [upLoop, List.nil_append] at he; exact lines i hi' e he
  | succ n ih =>
    intro i hi' e he
    simp only [upLoop] at he
    by_cases h : i > y2
    · rw [if_pos h] at he
      cases hg : group L R bs ((List.range bs).map fun y : Nat => i - (y : Int)) i (i - bs + 1) (i - bs + 1) with
      | none => rw [hg] at he; simp only [Option.elim_none, List.nil_append] at he; exact lines i hi' e he
      | some es =>
        rw [hg] at he
        simp only [Option.elim_some] at he
        obtain ⟨r1, r2⟩ := range_up i bs
        have htop : y2 < i - bs + 1 := by
          by_contra hn
          unfold group at hg
          simp only at hg
          rw [if_pos] at hg
          · cases hg
          · have h1 := hv (i - bs + 1) (by omega)
            have h2 := trunc_gt (max (L i) (L (i - bs + 1)))
            have h3 : (1 : ℚ) ≤ bs := by exact_mod_cast hb
            have h4 := le_max_right (L i) (L (i - bs + 1))
            have h5 := min_le_right (R i) (R (i - bs + 1))
            push_cast
            linarith
        rw [List.append_assoc] at he
        rcases List.mem_append.mp he with he | he
        · have := group_in (lo := y2 + 1) (hi := hi) (W := W) hb hg
            (fun r hr => by have := (r2 r).mp hr; omega) (by omega) (by omega) (by omega) bL bR
            (fun r hr => by
              have := (r2 r).mp hr
              exact hL.le_max (by omega) (by omega))
            (fun r hr => by
              have := (r2 r).mp hr
              exact hR.min_le (by omega) (by omega)) e he
          exact ⟨this.1, fun _ => this.2⟩
        · exact ih (i - bs) (by omega) e he
    · rw [if_neg h] at he
      simp only [List.nil_append] at he
      exact lines i hi' e he

theorem down_in {L R : Int → ℚ} {bs : Nat} (hb : 0 < bs) (hL : Mono L) (hR : Mono R) {lo y0 W : Int}
    (bL : EdgeIn L lo y0 W) (bR : EdgeIn R lo y0 W) (n : Nat) :
    ∀ (i : Int), lo ≤ i → ∀ e ∈ (downLoop L R bs y0 n i).1 ++ downLines L R y0 (downLoop L R bs y0 n i).2,
    EvIn lo y0 W bs e ∧ ((∀ r, lo ≤ r → r < y0 → trunc (L r) ≤ trunc (R r)) → e.Fwd) := by
  have lines : ∀ i : Int, lo ≤ i → ∀ e ∈ downLines L R y0 i, EvIn lo y0 W bs e ∧
      ((∀ r, lo ≤ r → r < y0 → trunc (L r) ≤ trunc (R r)) → e.Fwd) := by
    intro i hi' e he
    unfold downLines at he
    obtain ⟨r, hr, rfl⟩ := List.mem_map.mp he
    rw [mem_rows] at hr
    exact ⟨line_in bL bR (by omega) (by omega), fun h => h r (by omega) (by omega)⟩
  induction n with
  | zero => intro i hi' e he; simp only [downLoop, List.nil_append] at he; exact lines i hi' e he
  | succ n ih =>
    intro i hi' e he
    simp only [downLoop] at he
    by_cases h : i + bs < y0
    · rw [if_pos h] at he
      cases hg : group L R bs ((List.range bs).map fun y : Nat => i + (y : Int)) i (i + bs - 1) i with
      | none => rw [hg] at he; simp only [Option.elim_none, List.nil_append] at he; exact lines i hi' e he
      | some es =>
        rw [hg] at he
        simp only [Option.elim_some] at he
        obtain ⟨r1, r2⟩ := range_down i bs
        rw [List.append_assoc] at he
        rcases List.mem_append.mp he with he | he
        · have := group_in (lo := lo) (hi := y0) (W := W) hb hg
            (fun r hr => by have := (r2 r).mp hr; omega) (by omega) (by omega) (by omega) bL bR
            (fun r hr => by
              have := (r2 r).mp hr
              rw [max_comm]
              exact hL.le_max (by omega) (by omega))
            (fun r hr => by
              have := (r2 r).mp hr
              rw [min_comm]
              exact hR.min_le (by omega) (by omega)) e he
          exact ⟨this.1, fun _ => this.2⟩
        · exact ih (i + bs) (by omega) e he
    · rw [if_neg h] at he
      simp only [List.nil_append] at he
      exact lines i hi' e he

/-! ### The edges of a triangle of the image -/

/-- A point of the image of int16 size. -/
structure InBox (w h : Nat) (p : Pt) : Prop where
  x0 : 0 ≤ p.x
  x1 : p.x ≤ w
  y0 : 0 ≤ p.y
  y1 : p.y ≤ h

theorem InBox.small {w h : Nat} (hw : w ≤ 2 ^ 15) (hh : h ≤ 2 ^ 15) {p : Pt} (b : InBox w h p) : Small p := by
  obtain ⟨h1, h2, h3, h4⟩ := b
  constructor
  · rw [abs_of_nonneg h1]; exact le_trans h2 (by exact_mod_cast hw)
  · rw [abs_of_nonneg h3]; exact le_trans h4 (by exact_mod_cast hh)

theorem exact_le {a b : Pt} {W y : Int} (ha : a.x ≤ W) (hb : b.x ≤ W) (h1 : a.y ≤ y) (h2 : y ≤ b.y) (h : a.y < b.y) : exact a b y ≤ W := by
  unfold exact
  have hp : (0 : ℚ) < ((b.y - a.y : Int) : ℚ) := by exact_mod_cast (by omega : 0 < b.y - a.y)
  rw [div_le_iff₀ hp]
  have : num a b y ≤ W * (b.y - a.y) := by
    have e : num a b y = a.x * (b.y - y) + b.x * (y - a.y) := by unfold num; ring
    rw [e]
    have i1 := mul_le_mul_of_nonneg_right ha (show 0 ≤ b.y - y by omega)
    have i2 := mul_le_mul_of_nonneg_right hb (show 0 ≤ y - a.y by omega)
    nlinarith
  exact_mod_cast this

theorem edge_in {fl : ℚ → ℚ} (R : Rnd 53 fl) {w h : Nat} (hw : w ≤ 2 ^ 15) (hh : h ≤ 2 ^ 15) {a b : Pt} (ha : InBox w h a) (hb : InBox w h b)
    {lo hi : Int} (h1 : a.y ≤ lo) (h2 : hi ≤ b.y) : EdgeIn (edgeAt fl a b) lo hi w := by
  intro r hr1 hr2
  have e := abs_le.mp (cut_err R (ha.small hw hh) (hb.small hw hh) (by omega) (y := r) (by omega) (by omega))
  have e0 := exact_nonneg (u := a) (v := b) ⟨ha.x0, ha.y0⟩ ⟨hb.x0, hb.y0⟩ (y := r) (by omega) (by omega)
  have e1 := exact_le ha.x1 hb.x1 (y := r) (by omega) (by omega) (by omega)
  have sm : (1 : ℚ) / 2 ^ 35 < 1 := by norm_num
  constructor
  · unfold trunc
    split
    · rename_i k; exact Int.floor_nonneg.mpr k
    · rw [← Int.sub_one_lt_iff, Int.lt_ceil]; push_cast; linarith [e.1]
  · unfold trunc
    split
    · rw [← Int.lt_add_one_iff, Int.floor_lt]; push_cast; push_cast at e1; linarith [e.2]
    · rename_i k
      have : ⌈edgeAt fl a b r⌉ ≤ 0 := Int.ceil_le.mpr (by push_cast; linarith)
      omega

variable {fl : ℚ → ℚ} {w h : Nat} {p0 p1 p2 : Pt}

theorem upEdges_in (R : Rnd 53 fl) (hw : w ≤ 2 ^ 15) (hh : h ≤ 2 ^ 15) (b0 : InBox w h p0) (b1 : InBox w h p1) (b2 : InBox w h p2)
    (h10 : p1.y ≤ p0.y) : EdgeIn (upEdges fl p0 p1 p2).1 p2.y p1.y w ∧ EdgeIn (upEdges fl p0 p1 p2).2 p2.y p1.y w := by
  have i1 := edge_in R hw hh b2 b1 (le_refl _) (le_refl _)
  have i2 := edge_in R hw hh b2 b0 (le_refl p2.y) h10
  unfold upEdges
  split
  · exact ⟨i1, i2⟩
  · exact ⟨i2, i1⟩

theorem downEdges_in (R : Rnd 53 fl) (hw : w ≤ 2 ^ 15) (hh : h ≤ 2 ^ 15) (b0 : InBox w h p0) (b1 : InBox w h p1) (b2 : InBox w h p2)
    (h21 : p2.y ≤ p1.y) : EdgeIn (downEdges fl p0 p1 p2).1 p1.y p0.y w ∧ EdgeIn (downEdges fl p0 p1 p2).2 p1.y p0.y w := by
  have i1 := edge_in R hw hh b1 b0 (le_refl _) (le_refl _)
  have i2 := edge_in R hw hh b2 b0 h21 (le_refl _)
  unfold downEdges
  split_ifs <;> first | exact ⟨i1, i2⟩ | exact ⟨i2, i1⟩

/-- For a triangle of positive area the left edge is left of the right edge. -/
theorem upEdges_le (Q : Prec fl (fun p => Small p)) {r : Int} (r1 : p2.y ≤ r) :
    trunc ((upEdges fl p0 p1 p2).1 r) ≤ trunc ((upEdges fl p0 p1 p2).2 r) := by
  apply trunc_mono
  have hk : (0 : ℚ) ≤ ((r - p2.y : Int) : ℚ) := by exact_mod_cast (by omega : 0 ≤ r - p2.y)
  have m : ∀ m m' : ℚ, m ≤ m' → madd fl m (r - p2.y) p2.x ≤ madd fl m' (r - p2.y) p2.x := by
    intro m m' hm
    unfold madd
    have := Q.mono (mul_le_mul_of_nonneg_right hm hk)
    exact Q.mono (by linarith)
  unfold upEdges edgeAt
  split
  · rename_i k; exact m _ _ k.le
  · rename_i k; exact m _ _ (not_lt.mp k)

theorem downEdges_le (Q : Prec fl (fun p => Small p)) (s0 : Small p0) (s1 : Small p1) (s2 : Small p2) (h21 : p2.y ≤ p1.y)
    (hD : iori p2 p1 p0 ≠ 0) {r : Int} (r1 : p1.y ≤ r) (r2 : r < p0.y) :
    trunc ((downEdges fl p0 p1 p2).1 r) ≤ trunc ((downEdges fl p0 p1 p2).2 r) := by
  apply trunc_mono
  have sw : iori p1 p2 p0 = - iori p2 p1 p0 := by unfold iori; ring
  have c1 : 0 < iori p2 p1 p0 → edgeAt fl p2 p0 r ≤ edgeAt fl p1 p0 r := fun h =>
    Q.cut s2 s0 s1 s0 (by omega) (by omega) (by omega) (by omega) (by omega) (by omega)
      (exact_top (p := p1) (q := p2) (r := p0) (by omega) (by omega) h r2)
  have c2 : iori p2 p1 p0 < 0 → edgeAt fl p1 p0 r ≤ edgeAt fl p2 p0 r := fun h =>
    Q.cut s1 s0 s2 s0 (by omega) (by omega) (by omega) (by omega) (by omega) (by omega)
      (exact_top (p := p2) (q := p1) (r := p0) (by omega) (by omega) (by omega) r2)
  unfold downEdges
  by_cases h12 : p1.y = p2.y
  · rw [if_pos h12]
    have e : iori p2 p1 p0 = (p1.x - p2.x) * (p0.y - p2.y) := by unfold iori; rw [h12]; ring
    by_cases hx : p2.x < p1.x
    · rw [if_pos hx]
      exact c1 (by rw [e]; exact mul_pos (by omega) (by omega))
    · rw [if_neg hx]
      have : (p1.x - p2.x) * (p0.y - p2.y) ≤ 0 := mul_nonpos_of_nonpos_of_nonneg (by omega) (by omega)
      exact c2 (by omega)
  · rw [if_neg h12]
    have d := slope_diff (p := p2) (q := p1) (r := p0) (by omega) (by omega)
    have hpos : (0 : ℚ) < (((p1.y - p2.y) * (p0.y - p2.y) : Int) : ℚ) := by
      have : 0 < (p1.y - p2.y) * (p0.y - p2.y) := mul_pos (by omega) (by omega)
      exact_mod_cast this
    by_cases hs : slope fl p2 p1 < slope fl p2 p0
    · rw [if_pos hs]
      apply c2
      by_contra hn
      have h0 : 0 < iori p2 p1 p0 := by omega
      have : (0 : ℚ) < (iori p2 p1 p0 : ℚ) / (((p1.y - p2.y) * (p0.y - p2.y) : Int) : ℚ) :=
        div_pos (by exact_mod_cast h0) hpos
      apply absurd hs
      rw [not_lt]
      unfold slope
      exact Q.mono (by linarith)
    · rw [if_neg hs]
      apply c1
      by_contra hn
      have h0 : iori p2 p1 p0 < 0 := by omega
      have : (iori p2 p1 p0 : ℚ) / (((p1.y - p2.y) * (p0.y - p2.y) : Int) : ℚ) < 0 :=
        div_neg_of_neg_of_pos (by exact_mod_cast h0) hpos
      exact hs (Q.slope s2 s1 s2 s0 (by omega) (by omega) (by linarith))

/-- Calls of the line rasterizer in terms of edges. -/
theorem lines_form (hm : Monotone fl) (z : ℚ) (t : Tri) :
    ∀ e ∈ DDATriangleLines fl z t, ∃ r, (sortY t).2.2.y ≤ r ∧ r < (sortY t).1.y ∧
      ((r < (sortY t).2.1.y ∧ (e = .line (trunc ((upEdges fl (sortY t).1 (sortY t).2.1 (sortY t).2.2).1 r))
          (trunc ((upEdges fl (sortY t).1 (sortY t).2.1 (sortY t).2.2).2 r)) r)) ∨
       ((sortY t).2.1.y ≤ r ∧ (e = .line (trunc ((downEdges fl (sortY t).1 (sortY t).2.1 (sortY t).2.2).1 r))
          (trunc ((downEdges fl (sortY t).1 (sortY t).2.1 (sortY t).2.2).2 r)) r))) := by
  obtain ⟨s1, s2⟩ := sortY_sorted t
  unfold DDATriangleLines
  generalize sortY t = s at *
  obtain ⟨p0, p1, p2⟩ := s
  simp only at *
  intro e he
  by_cases h12 : p1.y = p2.y
  · rw [if_pos h12] at he
    unfold bottomTriangleLines flatTriangleLines fillTriangleLines at he
    obtain ⟨r, hr, rfl⟩ := List.mem_map.mp he
    rw [mem_rows] at hr
    refine ⟨r, by omega, hr.2, Or.inr ⟨hr.1, ?_⟩⟩
    have f1 := fdiv_fin fl p1 p0 (by omega)
    have f2 := fdiv_fin fl p2 p0 (by omega)
    unfold downEdges edgeAt
    rw [if_pos h12]
    by_cases hx : p2.x < p1.x
    · simp only [if_pos hx]
      rw [h12] at f1 ⊢
      rw [f1, f2]; rfl
    · simp only [if_neg hx]
      rw [← h12] at f2 ⊢
      rw [f1, f2]; rfl
  · rw [if_neg h12] at he
    by_cases h01 : p0.y = p1.y
    · rw [if_pos h01] at he
      unfold topTriangleLines flatTriangleLines fillTriangleLines at he
      obtain ⟨r, hr, rfl⟩ := List.mem_map.mp he
      rw [mem_rows] at hr
      refine ⟨r, hr.1, hr.2, Or.inl ⟨by omega, ?_⟩⟩
      have f0 := fdiv_fin fl p2 p0 (by omega)
      have f1 := fdiv_fin fl p2 p1 (by omega)
      have hneg : ((p2.y - p1.y : Int) : ℚ) < 0 := by exact_mod_cast (by omega : p2.y - p1.y < 0)
      have ord : ∀ u v : Pt, u.y = p1.y → v.y = p1.y → u.x ≤ v.x → slope fl p2 u ≤ slope fl p2 v := by
        intro u v hu hv huv
        unfold slope
        rw [hu, hv]
        apply hm
        rw [div_le_div_right_of_neg hneg]
        exact_mod_cast (by omega)
      unfold upEdges edgeAt
      by_cases hx : p0.x > p1.x
      · simp only [if_pos hx]
        rw [← h01] at f1
        rw [f0, f1]
        simp only [Slope.val]
        have := ord p1 p0 rfl h01 (by omega)
        split
        · rfl
        · rename_i hs
          have he : slope fl p2 p1 = slope fl p2 p0 := le_antisymm this (not_lt.mp hs)
          rw [he]
      · simp only [if_neg hx]
        rw [← h01] at f1
        rw [f0, f1]
        simp only [Slope.val]
        have := ord p0 p1 h01 rfl (by omega)
        rw [if_neg (not_lt.mpr this)]
    · rw [if_neg h01] at he
      unfold normalTriangleLines at he
      have f0 := fdiv_fin fl p2 p0 (by omega)
      have f1 := fdiv_fin fl p2 p1 (by omega)
      have f2 := fdiv_fin fl p1 p0 (by omega)
      have e1 : ∀ i : Int, i - p1.y + (p1.y - p2.y) = i - p2.y := fun i => by ring
      have e2 : ∀ i : Int, i - p1.y + 0 = i - p1.y := fun i => by ring
      simp only [f0, f1, f2] at he
      unfold upEdges downEdges
      rw [if_neg h12]
      by_cases hs : slope fl p2 p1 < slope fl p2 p0
      · have hg : (Slope.fin (slope fl p2 p0)).gt (.fin (slope fl p2 p1)) = true := by simp [Slope.gt, hs]
        simp only [hg, if_true, Slope.val, e1, e2] at he
        rw [if_pos hs, if_pos hs]
        rcases List.mem_append.mp he with he | he <;> obtain ⟨r, hr, rfl⟩ := List.mem_map.mp he <;> rw [mem_rows] at hr
        · exact ⟨r, by omega, by omega, Or.inl ⟨hr.2, rfl⟩⟩
        · exact ⟨r, by omega, by omega, Or.inr ⟨hr.1, rfl⟩⟩
      · have hg : (Slope.fin (slope fl p2 p0)).gt (.fin (slope fl p2 p1)) = false := by simp [Slope.gt, hs]
        simp only [hg, Bool.false_eq_true, if_false, Slope.val, e1, e2] at he
        rw [if_neg hs, if_neg hs]
        rcases List.mem_append.mp he with he | he <;> obtain ⟨r, hr, rfl⟩ := List.mem_map.mp he <;> rw [mem_rows] at hr
        · exact ⟨r, by omega, by omega, Or.inl ⟨hr.2, rfl⟩⟩
        · exact ⟨r, by omega, by omega, Or.inr ⟨hr.1, rfl⟩⟩

theorem sortY_all {P : Pt → Prop} {t : Tri} (h : AllT P t) : P (sortY t).1 ∧ P (sortY t).2.1 ∧ P (sortY t).2.2 := by
  have hp := sortY_perm t
  generalize sortY t = s at *
  obtain ⟨p0, p1, p2⟩ := s
  simp only at *
  obtain ⟨ha, hb, hc⟩ := h
  rcases perm_three hp with ⟨rfl, rfl, rfl⟩ | ⟨rfl, rfl, rfl⟩ | ⟨rfl, rfl, rfl⟩ | ⟨rfl, rfl, rfl⟩ | ⟨rfl, rfl, rfl⟩ | ⟨rfl, rfl, rfl⟩ <;>
    exact ⟨by assumption, by assumption, by assumption⟩

theorem sortY_iori {t : Tri} (h : iori t.a t.b t.c ≠ 0) : iori (sortY t).2.2 (sortY t).2.1 (sortY t).1 ≠ 0 := by
  have hp := sortY_perm t
  generalize sortY t = s at *
  obtain ⟨p0, p1, p2⟩ := s
  simp only at *
  intro hz
  apply h
  unfold iori at hz ⊢
  rcases perm_three hp with ⟨h1, h2, h3⟩ | ⟨h1, h2, h3⟩ | ⟨h1, h2, h3⟩ | ⟨h1, h2, h3⟩ | ⟨h1, h2, h3⟩ | ⟨h1, h2, h3⟩ <;>
    rw [h1, h2, h3] at hz <;> linarith

theorem lines_in (R : Rnd 53 fl) (z : ℚ) (bs : Nat) (hw : w ≤ 2 ^ 15) (hh : h ≤ 2 ^ 15) {t : Tri} (ht : AllT (InBox w h) t) :
    ∀ e ∈ DDATriangleLines fl z t, EvIn 0 h w bs e ∧ (iori t.a t.b t.c ≠ 0 → e.Fwd) := by
  obtain ⟨b0, b1, b2⟩ := sortY_all ht
  obtain ⟨s1, s2⟩ := sortY_sorted t
  have hio := @sortY_iori t
  have hf := lines_form (fun a b => R.mono a b) z t
  intro e he
  obtain ⟨r, r1, r2, k⟩ := hf e he
  generalize sortY t = s at *
  obtain ⟨p0, p1, p2⟩ := s
  simp only at *
  have y0 := b2.y0
  have y1 := b0.y1
  have Q := prec_rnd R
  rcases k with ⟨k, rfl⟩ | ⟨k, rfl⟩
  · obtain ⟨u1, u2⟩ := upEdges_in R hw hh b0 b1 b2 s2
    exact ⟨(line_in u1 u2 r1 k).mono y0 (by omega), fun _ => upEdges_le Q r1⟩
  · obtain ⟨u1, u2⟩ := downEdges_in R hw hh b0 b1 b2 s1
    exact ⟨(line_in u1 u2 k r2).mono (by omega) y1,
      fun hn => downEdges_le Q (b0.small hw hh) (b1.small hw hh) (b2.small hw hh) s1 (hio hn) k r2⟩

theorem blocks_in (R : Rnd 53 fl) (z : ℚ) {bs : Nat} (hb : 0 < bs) (hw : w ≤ 2 ^ 15) (hh : h ≤ 2 ^ 15) {t : Tri} (ht : AllT (InBox w h) t) :
    ∀ e ∈ DDATriangleBlocks fl z t bs, EvIn 0 h w bs e ∧ (iori t.a t.b t.c ≠ 0 → e.Fwd) := by
  obtain ⟨b0, b1, b2⟩ := sortY_all ht
  obtain ⟨s1, s2⟩ := sortY_sorted t
  have hio := @sortY_iori t
  have hm : Monotone fl := fun a b => R.mono a b
  unfold DDATriangleBlocks
  generalize sortY t = s at *
  obtain ⟨p0, p1, p2⟩ := s
  simp only at *
  rw [blocks_form fl hm z bs s1 s2]
  have y0 := b2.y0
  have y1 := b0.y1
  have Q := prec_rnd R
  intro e he
  rcases List.mem_append.mp he with he | he
  · obtain ⟨u1, u2⟩ := upEdges_in R hw hh b0 b1 b2 s2
    have := up_in hb (upEdges_mono hm p0 p1 p2).1 (upEdges_mono hm p0 p1 p2).2 (upEdges_flip hm p0 p1 p2)
      (fun r h1 h2 => u1 r (by omega) h2) (fun r h1 h2 => u2 r (by omega) h2) _ (p1.y - 1) (by omega) e he
    exact ⟨this.1.mono (by omega) (by omega), fun _ => this.2 (fun r h1 _ => upEdges_le Q (by omega))⟩
  · obtain ⟨u1, u2⟩ := downEdges_in R hw hh b0 b1 b2 s1
    have := down_in hb (downEdges_mono hm p0 p1 p2).1 (downEdges_mono hm p0 p1 p2).2 u1 u2 _ p1.y (le_refl _) e he
    exact ⟨this.1.mono (by omega) y1, fun hn => this.2 (fun r h1 h2 =>
      downEdges_le Q (b0.small hw hh) (b1.small hw hh) (b2.small hw hh) s1 (hio hn) h1 h2)⟩

/-! ### The bounds on iterations are never reached -/

theorem blockRun_fuel {bs : Nat} (hb : 0 < bs) (minX : ℚ) (y : Int) : ∀ (n : Nat) (x : Int), ⌈minX⌉ - x ≤ n →
    blockRun bs minX y (n + 1) x = blockRun bs minX y n x := by
  intro n
  induction n with
  | zero =>
    intro x hx
    have : ¬ ((x + bs : Int) : ℚ) < minX := by
      rw [not_lt]
      have := Int.le_ceil minX
      have h2 : (⌈minX⌉ : ℚ) ≤ ((x + bs : Int) : ℚ) := by exact_mod_cast (by omega : ⌈minX⌉ ≤ x + bs)
      linarith
    simp only [blockRun, if_neg this]
  | succ n ih =>
    intro x hx
    rw [blockRun]
    conv_rhs => rw [blockRun]
    rw [ih (x + bs) (by omega)]

theorem upLoop_fuel (L R : Int → ℚ) {bs : Nat} (hb : 0 < bs) (y2 : Int) : ∀ (n : Nat) (i : Int), i - y2 ≤ n →
    upLoop L R bs y2 (n + 1) i = upLoop L R bs y2 n i := by
  intro n
  induction n with
  | zero =>
    intro i hi
    have : ¬ i > y2 := by omega
    simp only [upLoop, if_neg this]
  | succ n ih =>
    intro i hi
    rw [upLoop]
    conv_rhs => rw [upLoop]
    rw [ih (i - bs) (by omega)]

theorem downLoop_fuel (L R : Int → ℚ) {bs : Nat} (hb : 0 < bs) (y0 : Int) : ∀ (n : Nat) (i : Int), y0 - i ≤ n →
    downLoop L R bs y0 (n + 1) i = downLoop L R bs y0 n i := by
  intro n
  induction n with
  | zero =>
    intro i hi
    have : ¬ i + bs < y0 := by omega
    simp only [downLoop, if_neg this]
  | succ n ih =>
    intro i hi
    rw [downLoop]
    conv_rhs => rw [downLoop]
    rw [ih (i + bs) (by omega)]

end Verif.Raster

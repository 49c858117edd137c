import Verif.Tri.Partition
import Mathlib.Data.List.Nodup
import Mathlib.Data.List.Perm.Lattice
import Mathlib.Data.List.Pairwise

/-!
# The Delaunay invariant and its consequences
-/

namespace Verif.Tri

/-- `x` is strictly inside the counterclockwise triangle `s`. -/
def Inside (s : T3) (x : P2) : Prop := 0 < ori s.a s.b x ∧ 0 < ori s.b s.c x ∧ 0 < ori s.c s.a x

/-- The invariant of a Delaunay triangulation `T` of the points `V` inside `s`. -/
structure Inv (s : T3) (V : P2 → Prop) (T : List T3) : Prop where
  sccw : 0 < s.or
  ccw : Ccw T
  chain : Chain s T
  verts : ∀ t ∈ T, ∀ x, t.Has x → V x ∨ s.Has x
  inside : ∀ x, V x → Inside s x
  del : ∀ t ∈ T, ∀ x, V x ∨ s.Has x → 0 ≤ t.pow x

/-- `t` is `⟨u, v, w⟩` up to rotation. -/
def T3.Rep (t : T3) (u v w : P2) : Prop := t = ⟨u, v, w⟩ ∨ t = ⟨w, u, v⟩ ∨ t = ⟨v, w, u⟩

theorem T3.rep_self (t : T3) : t.Rep t.a t.b t.c := Or.inl rfl

theorem T3.Rep.or_eq {t : T3} {u v w} (h : t.Rep u v w) : t.or = ori u v w := by
  rcases h with rfl | rfl | rfl <;> simp [T3.or, ori_rot]

theorem T3.Rep.has_iff {t : T3} {u v w} (h : t.Rep u v w) (x : P2) :
    t.Has x ↔ x = u ∨ x = v ∨ x = w := by
  rcases h with rfl | rfl | rfl <;> unfold T3.Has <;> simp only <;> tauto

theorem T3.Rep.half_iff {t : T3} {u v w} (h : t.Rep u v w) (q : P2) :
    HalfOpen t q ↔ HalfOpen ⟨u, v, w⟩ q := by
  rcases h with rfl | rfl | rfl <;> unfold HalfOpen <;> simp only <;> tauto

theorem T3.Rep.esum_eq {t : T3} {u v w} (h : t.Rep u v w) (f : P2 → P2 → ℤ) :
    esum f t = f u v + f v w + f w u := by
  rcases h with rfl | rfl | rfl <;> unfold esum <;> ring

theorem T3.Rep.rot {t : T3} {u v w} (h : t.Rep u v w) : t.Rep v w u := by
  rcases h with rfl | rfl | rfl <;> unfold T3.Rep <;> tauto

theorem T3.Rep.pow_eq {t : T3} {u v w} (h : t.Rep u v w) (ht : t.or ≠ 0) (x : P2) :
    t.pow x = T3.pow ⟨u, v, w⟩ x := by
  have h0 : ori u v w ≠ 0 := by rw [← h.or_eq]; exact ht
  refine Pw.unique _ _ u v w h0 ?_ ?_ ?_ x
  · rw [pwT_a]; exact t.pow_vertex ht ((h.has_iff u).mpr (Or.inl rfl))
  · rw [pwT_b _ _ _ h0]; exact t.pow_vertex ht ((h.has_iff v).mpr (Or.inr (Or.inl rfl)))
  · rw [pwT_c _ _ _ h0]; exact t.pow_vertex ht ((h.has_iff w).mpr (Or.inr (Or.inr rfl)))

theorem T3.Rep.edges_iff {t : T3} {u v w} (h : t.Rep u v w) (e : P2 × P2) :
    e ∈ t.edges ↔ e = (u, v) ∨ e = (v, w) ∨ e = (w, u) := by
  rcases h with rfl | rfl | rfl <;> simp [T3.edges] <;> tauto

theorem T3.mem_edges_iff (t : T3) (u v : P2) : (u, v) ∈ t.edges ↔ ∃ w, t.Rep u v w := by
  constructor
  · intro h
    simp only [T3.edges, List.mem_cons, Prod.mk.injEq, List.not_mem_nil, or_false] at h
    rcases h with ⟨rfl, rfl⟩ | ⟨rfl, rfl⟩ | ⟨rfl, rfl⟩
    · exact ⟨t.c, Or.inl rfl⟩
    · exact ⟨t.a, Or.inr (Or.inl rfl)⟩
    · exact ⟨t.b, Or.inr (Or.inr rfl)⟩
  · rintro ⟨w, h⟩
    exact (h.edges_iff _).mpr (Or.inl rfl)

theorem T3.has_of_edge {t : T3} {u v : P2} (h : (u, v) ∈ t.edges) : t.Has u ∧ t.Has v := by
  obtain ⟨w, hw⟩ := (t.mem_edges_iff u v).mp h
  exact ⟨(hw.has_iff u).mpr (Or.inl rfl), (hw.has_iff v).mpr (Or.inr (Or.inl rfl))⟩

theorem T3.edge_of_has {t : T3} {x : P2} (h : t.Has x) : ∃ u v, t.Rep x u v := by
  rcases h with rfl | rfl | rfl
  · exact ⟨t.b, t.c, Or.inl rfl⟩
  · exact ⟨t.c, t.a, Or.inr (Or.inl rfl)⟩
  · exact ⟨t.a, t.b, Or.inr (Or.inr rfl)⟩

theorem ne_of_ori_pos {u v w : P2} (h : 0 < ori u v w) : u ≠ v ∧ v ≠ w ∧ w ≠ u := by
  refine ⟨?_, ?_, ?_⟩ <;> rintro rfl <;> simp at h

/-- All directed edges of a list of triangles. -/
def edgesOf (T : List T3) : List (P2 × P2) := T.flatMap T3.edges

theorem mem_edgesOf {T : List T3} {e : P2 × P2} : e ∈ edgesOf T ↔ ∃ t ∈ T, e ∈ t.edges := by
  unfold edgesOf; exact List.mem_flatMap

theorem tsum_eq_edges (f : P2 → P2 → ℤ) (T : List T3) :
    tsum f T = ((edgesOf T).map (fun e => f e.1 e.2)).sum := by
  induction T with
  | nil => rfl
  | cons t T ih =>
    rw [tsum_cons, ih]
    simp [edgesOf, esum, T3.edges, List.flatMap_cons]
    ring

/-- A small step keeps a positive quantity positive. -/
theorem small_step (c k : ℚ) (hc : 0 < c) : ∃ e0 : ℚ, 0 < e0 ∧ ∀ e, 0 < e → e ≤ e0 → 0 < c + e * k := by
  by_cases hk : 0 ≤ k
  · exact ⟨1, one_pos, fun e he _ => by have := mul_nonneg he.le hk; linarith⟩
  · push Not at hk
    refine ⟨c / (-k) / 2, by have : 0 < -k := by linarith
                             positivity, fun e he h => ?_⟩
    have hk' : 0 < -k := by linarith
    have h1 : e * (-k) ≤ c / (-k) / 2 * (-k) := mul_le_mul_of_nonneg_right h hk'.le
    have h2 : c / (-k) / 2 * (-k) = c / 2 := by
      have := hk'.ne'
      generalize -k = m at *
      field_simp
    linarith

/-- Triangles on the same side of a common directed edge overlap. -/
theorem overlap_edge (u v a b : P2) (ha : 0 < ori u v a) (hb : 0 < ori u v b) :
    ∃ q, HalfOpen ⟨u, v, a⟩ q ∧ HalfOpen ⟨u, v, b⟩ q := by
  have key : ∀ w, 0 < ori u v w → ∃ e0 : ℚ, 0 < e0 ∧ ∀ e, 0 < e → e ≤ e0 →
      HalfOpen ⟨u, v, w⟩ ⟨(u.x + v.x) / 2 - e * (v.y - u.y), (u.y + v.y) / 2 + e * (v.x - u.x)⟩ := by
    intro w hw
    obtain ⟨e1, h1, k1⟩ := small_step (ori u v w / 2)
      ((w.x - v.x) * (v.x - u.x) + (w.y - v.y) * (v.y - u.y)) (by linarith)
    obtain ⟨e2, h2, k2⟩ := small_step (ori u v w / 2)
      ((u.x - w.x) * (v.x - u.x) + (u.y - w.y) * (v.y - u.y)) (by linarith)
    refine ⟨min e1 e2, lt_min h1 h2, fun e he hle => ?_⟩
    have j1 := k1 e he (hle.trans (min_le_left _ _))
    have j2 := k2 e he (hle.trans (min_le_right _ _))
    apply HalfOpen.of_interior
    · have hne := (ne_of_ori_pos hw).1
      have : 0 < (v.x - u.x) ^ 2 + (v.y - u.y) ^ 2 := by
        rcases eq_or_ne v.x u.x with hx | hx
        · have hy : v.y - u.y ≠ 0 := fun h0 => hne (by ext <;> linarith)
          have := sq_pos_of_ne_zero hy
          have := sq_nonneg (v.x - u.x)
          linarith
        · have := sq_pos_of_ne_zero (sub_ne_zero.mpr hx)
          have := sq_nonneg (v.y - u.y)
          linarith
      have h3 := mul_pos he this
      unfold ori; simp only
      linarith
    · unfold ori at *; simp only
      linarith
    · unfold ori at *; simp only
      linarith
  obtain ⟨e1, h1, k1⟩ := key a ha
  obtain ⟨e2, h2, k2⟩ := key b hb
  exact ⟨_, k1 (min e1 e2) (lt_min h1 h2) (min_le_left _ _),
    k2 (min e1 e2) (lt_min h1 h2) (min_le_right _ _)⟩

/-- No two list positions share a location. -/
theorem pairwise_of_count {T : List T3} (h : ∀ q, T.countP (fun t => HalfOpen t q) ≤ 1) :
    T.Pairwise (fun t u => ∀ q, ¬ (HalfOpen t q ∧ HalfOpen u q)) := by
  induction T with
  | nil => exact List.Pairwise.nil
  | cons t T ih =>
    refine List.Pairwise.cons ?_ (ih fun q => ?_)
    · rintro u hu q ⟨h1, h2⟩
      have h3 := h q
      rw [List.countP_cons, if_pos (by simpa using h1)] at h3
      have : 0 < T.countP (fun t => HalfOpen t q) :=
        List.countP_pos_iff.mpr ⟨u, hu, by simpa using h2⟩
      omega
    · have := h q
      rw [List.countP_cons] at this
      omega

namespace Inv

variable {s : T3} {V : P2 → Prop} {T : List T3}

theorem count_le (I : Inv s V T) (q : P2) : T.countP (fun t => HalfOpen t q) ≤ 1 := by
  rw [partition I.sccw I.ccw I.chain]; split <;> omega

theorem disjoint (I : Inv s V T) : T.Pairwise (fun t u => ∀ q, ¬ (HalfOpen t q ∧ HalfOpen u q)) :=
  pairwise_of_count I.count_le

theorem t_ne (I : Inv s V T) {t : T3} (ht : t ∈ T) : t.or ≠ 0 := (I.ccw t ht).ne'

/-- Each directed edge occurs once. -/
theorem edges_nodup (I : Inv s V T) : (edgesOf T).Nodup := by
  unfold edgesOf
  rw [List.nodup_flatMap]
  refine ⟨fun t ht => ?_, ?_⟩
  · have h := ne_of_ori_pos (I.ccw t ht)
    simp only [T3.edges, List.nodup_cons, List.mem_cons, Prod.mk.injEq, List.not_mem_nil, or_false,
      not_false_eq_true, List.nodup_nil, and_true, not_or, not_and]
    exact ⟨⟨fun h1 => (h.1 h1).elim, fun h1 => (h.2.2 h1.symm).elim⟩, fun h1 => (h.2.1 h1).elim⟩
  · refine I.disjoint.imp_of_mem ?_
    intro t u ht hu hd e het heu
    obtain ⟨x, y⟩ := e
    obtain ⟨w, hw⟩ := (t.mem_edges_iff x y).mp het
    obtain ⟨z, hz⟩ := (u.mem_edges_iff x y).mp heu
    have h1 := I.ccw t ht
    have h2 := I.ccw u hu
    rw [hw.or_eq] at h1
    rw [hz.or_eq] at h2
    obtain ⟨q, q1, q2⟩ := overlap_edge x y w z h1 h2
    exact hd q ⟨(hw.half_iff q).mpr q1, (hz.half_iff q).mpr q2⟩

/-- Two triangles of `T` with a common directed edge are equal. -/
theorem edge_unique (I : Inv s V T) {t u : T3} (ht : t ∈ T) (hu : u ∈ T) {e : P2 × P2}
    (h1 : e ∈ t.edges) (h2 : e ∈ u.edges) : t = u := by
  by_contra hne
  have hn := I.edges_nodup
  unfold edgesOf at hn
  rw [List.nodup_flatMap] at hn
  have hp := hn.2
  have sym : Std.Symm (Function.onFun List.Disjoint T3.edges) := ⟨fun a b h => h.symm⟩
  have := hp.forall ht hu hne
  exact this h1 h2

/-- The indicator of a directed edge, made antisymmetric. -/
def eInd (u v a b : P2) : ℤ := (if (a, b) = (u, v) then 1 else 0) - (if (a, b) = (v, u) then 1 else 0)

theorem eInd_anti (u v : P2) : Anti (eInd u v) := by
  intro a b
  unfold eInd
  simp only [Prod.mk.injEq]
  have h1 : (a = u ∧ b = v) ↔ (b = v ∧ a = u) := and_comm
  have h2 : (a = v ∧ b = u) ↔ (b = u ∧ a = v) := and_comm
  simp only [h1, h2]
  ring

theorem eInd_sum (u v : P2) (L : List (P2 × P2)) :
    (L.map (fun e => eInd u v e.1 e.2)).sum = (L.count (u, v) : ℤ) - L.count (v, u) := by
  induction L with
  | nil => rfl
  | cons e L ih =>
    rw [List.map_cons, List.sum_cons, ih, List.count_cons, List.count_cons]
    obtain ⟨a, b⟩ := e
    unfold eInd
    simp only [beq_iff_eq]
    push_cast
    ring

/-- An edge of `T` without its reverse in `T` is an edge of the bounding triangle. -/
theorem rev_or_super (I : Inv s V T) {u v : P2} (h : (u, v) ∈ edgesOf T) :
    (v, u) ∈ edgesOf T ∨ (u, v) ∈ s.edges := by
  by_cases hr : (v, u) ∈ edgesOf T
  · exact Or.inl hr
  · right
    have h1 := I.chain _ (eInd_anti u v)
    rw [tsum_eq_edges, eInd_sum, List.count_eq_zero.mpr hr] at h1
    have h2 : 0 < (edgesOf T).count (u, v) := List.count_pos_iff.mpr h
    have h3 : esum (eInd u v) s = (s.edges.count (u, v) : ℤ) - s.edges.count (v, u) := by
      rw [← eInd_sum]; simp [esum, T3.edges]; ring
    rw [h3] at h1
    have : 0 < s.edges.count (u, v) := by omega
    exact List.count_pos_iff.mp this

theorem half_inside {x : P2} (hx : Inside s x) : HalfOpen s x :=
  HalfOpen.of_interior hx.1 hx.2.1 hx.2.2

/-- A location inside the bounding triangle lies in some triangle. -/
theorem exists_half (I : Inv s V T) {x : P2} (hx : HalfOpen s x) : ∃ t ∈ T, HalfOpen t x := by
  have := partition I.sccw I.ccw I.chain x
  rw [if_pos hx] at this
  have h : 0 < T.countP (fun t => HalfOpen t x) := by omega
  obtain ⟨t, ht, h2⟩ := List.countP_pos_iff.mp h
  exact ⟨t, ht, by simpa using h2⟩

theorem half_pow (I : Inv s V T) {t : T3} (ht : t ∈ T) {x : P2} (h : HalfOpen t x) :
    t.pow x ≤ 0 ∧ (t.pow x = 0 → t.Has x) :=
  t.pow_closed (I.ccw t ht) x (onLeft_nonneg h.1) (onLeft_nonneg h.2.1) (onLeft_nonneg h.2.2)

/-- Every point of `V` is a vertex. -/
theorem vertex_of_mem (I : Inv s V T) {x : P2} (hx : V x) : ∃ t ∈ T, t.Has x := by
  obtain ⟨t, ht, h⟩ := I.exists_half (half_inside (I.inside x hx))
  have h1 := I.half_pow ht h
  have h2 := I.del t ht x (Or.inl hx)
  exact ⟨t, ht, h1.2 (le_antisymm h1.1 h2)⟩

theorem not_super_of_inside {x : P2} (hx : Inside s x) : ¬ s.Has x := by
  rintro (rfl | rfl | rfl)
  · have := hx.1; simp at this
  · have := hx.1; simp at this
  · have := hx.2.1; simp at this

/-- All vertices are on the inner side of the bounding edges. -/
theorem super_edge_nonneg (I : Inv s V T) {u v : P2} (h : (u, v) ∈ s.edges) {x : P2}
    (hx : V x ∨ s.Has x) : 0 ≤ ori u v x := by
  obtain ⟨w, hw⟩ := (s.mem_edges_iff u v).mp h
  rcases hx with hx | hx
  · have := I.inside x hx
    simp only [T3.edges, List.mem_cons, Prod.mk.injEq, List.not_mem_nil, or_false] at h
    rcases h with ⟨rfl, rfl⟩ | ⟨rfl, rfl⟩ | ⟨rfl, rfl⟩
    · exact this.1.le
    · exact this.2.1.le
    · exact this.2.2.le
  · have hs := I.sccw
    rw [hw.or_eq] at hs
    rcases (hw.has_iff x).mp hx with rfl | rfl | rfl
    · simp
    · simp
    · exact hs.le

end Inv

theorem inside_edge {s : T3} {p u v : P2} (hp : Inside s p) (h : (u, v) ∈ s.edges) :
    0 < ori u v p := by
  simp only [T3.edges, List.mem_cons, Prod.mk.injEq, List.not_mem_nil, or_false] at h
  rcases h with ⟨rfl, rfl⟩ | ⟨rfl, rfl⟩ | ⟨rfl, rfl⟩
  · exact hp.1
  · exact hp.2.1
  · exact hp.2.2

/-- Initial triangulation: the bounding triangle alone. -/
theorem Inv.init {s : T3} (hs : 0 < s.or) : Inv s (fun _ => False) [s] where
  sccw := hs
  ccw := by simpa [Ccw] using hs
  chain := by intro f _; simp
  verts := by intro t ht x hx; simp at ht; subst ht; exact Or.inr hx
  inside := by simp
  del := by
    intro t ht x hx
    simp at ht; subst ht
    rcases hx with hx | hx
    · exact hx.elim
    · rw [t.pow_vertex hs.ne' hx]

end Verif.Tri

import Verif.Props.Delaunay
import Verif.Incr.Det
import Verif.Incr.Weak

/-!
# Properties of the parts of the triangulation (C15-C21)
-/

namespace Verif.Props

open Verif.Tri Verif.Spec Verif.Incr Verif.Float

variable {g : Geo} {fl : ℚ → ℚ} {w h : Nat} {ops : List Op} {s : Multiset Pt} {m : Nat} {d : D}

/-! ### C15 -/

/-- **C15** (partial: sizes up to 13106, not 1 x 1): every location of the image is strictly inside the
bounding triangle, and no bounding vertex is an image point. -/
theorem c15_super_contains_partial (w1 : 1 ≤ w) (h1 : 1 ≤ h) (w2 : w ≤ 13106) (h2 : h ≤ 13106) (two : 2 ≤ w ∨ 2 ≤ h) :
    (∀ q : P2, 0 ≤ q.x → q.x ≤ w → 0 ≤ q.y → q.y ≤ h → Interior (newSuperTriangle w h) q) ∧
    ∀ v, IsVertex (newSuperTriangle w h) v → ¬ InImg w h v := by
  refine ⟨fun q a b c e => super_contains w1 h1 w2 h2 two a b c e, ?_⟩
  rintro v hv ⟨a, b, c, e⟩
  have hi := super_contains (q := loc v) w1 h1 w2 h2 two (by simp only [loc]; exact_mod_cast a)
    (by simp only [loc]; exact_mod_cast b) (by simp only [loc]; exact_mod_cast c) (by simp only [loc]; exact_mod_cast e)
  generalize newSuperTriangle w h = S at *
  have self : ∀ a b : Pt, area2 a b (loc a) = 0 := by intro a b; unfold area2 loc; simp
  unfold Interior at hi
  rcases hv with rfl | rfl | rfl
  · rw [self] at hi; rcases hi with hi | hi <;> linarith [hi.1]
  · have := self S.b S.c; rcases hi with hi | hi <;> linarith [hi.2.1]
  · have := self S.c S.a; rcases hi with hi | hi <;> linarith [hi.2.2]

example : Interior (newSuperTriangle 13106 4000) ⟨13106, 0⟩ :=
  (c15_super_contains_partial (by norm_num) (by norm_num) (by norm_num) (by norm_num) (by norm_num)).1 ⟨13106, 0⟩ (by norm_num)
    (by norm_num) (by norm_num) (by norm_num)

/-- **C15 is false for 1 x 1 images**: (0,0) lies on an edge of the bounding triangle. -/
theorem c15_one_pixel_false : ¬ Interior (newSuperTriangle 1 1) ⟨0, 0⟩ := by
  have e : newSuperTriangle 1 1 = ⟨⟨-1, 0⟩, ⟨1, 3⟩, ⟨3, 0⟩⟩ := by decide
  rw [e]
  unfold Interior area2
  norm_num

/-- **C15 is false from 13107 pixels on**: the coordinates wrap around. -/
theorem c15_wrap_false : ¬ Interior (newSuperTriangle 13107 13107) ⟨13107, 13107⟩ := by
  have e : newSuperTriangle 13107 13107 = ⟨⟨-19660, -6553⟩, ⟨6554, -32768⟩, ⟨-32768, -6553⟩⟩ := by decide
  rw [e]
  unfold Interior area2
  norm_num

/-! ### C16 -/

/-- **C16**: the wrapping arithmetic of `Insert`, `Remove`, `GetClosestTo` and `calcCircumcircle` agrees with
integer arithmetic: `a`, `b`, `c` are image points or bounding vertices, `p` is an image point. -/
theorem c16_no_overflow (k : SizeOk w h) {a b c p : Pt} (ha : Ok w h a) (hb : Ok w h b) (hc : Ok w h c)
    (hp : InImg w h p) :
    orientation a b c = (a.x - c.x) * (b.y - c.y) - (b.x - c.x) * (a.y - c.y) ∧
    inCircleDet a b c p =
      ((a.x - p.x) ^ 2 + (a.y - p.y) ^ 2) * ((b.x - p.x) * (c.y - p.y) - (c.x - p.x) * (b.y - p.y)) +
      ((b.x - p.x) ^ 2 + (b.y - p.y) ^ 2) * ((c.x - p.x) * (a.y - p.y) - (a.x - p.x) * (c.y - p.y)) +
      ((c.x - p.x) ^ 2 + (c.y - p.y) ^ 2) * ((a.x - p.x) * (b.y - p.y) - (b.x - p.x) * (a.y - p.y)) ∧
    distSq p a = (a.x - p.x) ^ 2 + (a.y - p.y) ^ 2 ∧
    (w16 (a.x - p.x) = a.x - p.x ∧ w16 (a.y - p.y) = a.y - p.y) ∧
    w64 (w16 (b.x - a.x) * w16 (p.y - b.y) - w16 (b.y - a.y) * w16 (p.x - b.x)) =
      (b.x - a.x) * (p.y - b.y) - (b.y - a.y) * (p.x - b.x) ∧
    (NonDegenerate ⟨a, b, c⟩ → ∀ F : FloatOps, Rnd 53 F.r64 →
      calcCircumcircle F a b c =
        let cx := F.r64 (((circInts a b c).nx : ℚ) / (circInts a b c).g)
        let cy := F.r64 (((circInts a b c).ny : ℚ) / (circInts a b c).g)
        let dx := F.r64 (cx - a.x)
        let dy := F.r64 (cy - a.y)
        ⟨F.r32 cx, F.r32 cy, F.r32 (F.sqrt (F.r64 (F.r64 (dx * dx) + F.r64 (dy * dy))))⟩) := by
  have i16 : ∀ q, Ok w h q → I16 q := by
    intro q hq
    have n := hq.near k
    exact ⟨by linarith [n.x1], by linarith [n.x2], by linarith [n.y1], by linarith [n.y2]⟩
  refine ⟨Det.orientation_exact (i16 a ha) (i16 b hb) (i16 c hc),
    Det.inCircleDet_exact (i16 a ha) (i16 b hb) (i16 c hc) (i16 p (Or.inl hp)),
    (distSq_ok k ha hp).1, diff16 k ha hp, ?_, fun nd F R => circ_ints k R ha hb hc nd⟩
  have := gTest k (e := (a, b)) ha hb hp
  have e : ori (toP a) (toP b) (toP p) = (((b.x - a.x) * (p.y - b.y) - (b.y - a.y) * (p.x - b.x) : Int) : ℚ) := by
    unfold ori toP; push_cast; ring
  rw [e] at this
  exact_mod_cast this

example : SizeOk 8191 8191 ∧ Ok 8191 8191 ⟨8191, 0⟩ ∧ Ok 8191 8191 (newSuperTriangle 8191 8191).a :=
  ⟨⟨by norm_num, by norm_num, by norm_num, by norm_num, by norm_num⟩,
    Or.inl ⟨by norm_num, by norm_num, by norm_num, by norm_num⟩, Or.inr (by simp [Tri.hasVertex])⟩

/-! ### C17 -/

/-- **C17**: for every triple of non-collinear int16 points, in any order and orientation, and every int16
point, `inCircle` is nonnegative exactly on the closed circumscribed disc, and zero exactly on the circle. -/
theorem c17_inCircle {a b c d : Pt} (ha : I16 a) (hb : I16 b) (hc : I16 c) (hd : I16 d)
    (nd : NonDegenerate ⟨a, b, c⟩) :
    (0 ≤ inCircle a b c d ↔ InDisc ⟨a, b, c⟩ d) ∧ (0 < inCircle a b c d ↔ InsideCircle ⟨a, b, c⟩ d) := by
  have ho := (nondeg_iff _).mp nd
  have hi : (inCircle a b c d : ℚ) = inc (norm ⟨a, b, c⟩).a (norm ⟨a, b, c⟩).b (norm ⟨a, b, c⟩).c (toP d) := by
    have e := Det.orientation_exact ha hb hc
    have hori : ori (toP a) (toP b) (toP c) = (orientation a b c : ℚ) := by
      rw [e]; unfold ori toP; push_cast; ring
    have hne := (norm_or _).mp ho
    unfold inCircle norm
    simp only at hne ⊢
    by_cases h : 0 < ori (toP a) (toP b) (toP c)
    · rw [if_pos h, if_neg, Det.inCircleDet_exact ha hb hc hd]
      · unfold inc toP; push_cast; ring
      · rw [hori] at h
        have : 0 < orientation a b c := by exact_mod_cast h
        omega
    · rw [if_neg h, if_pos, Det.inCircleDet_exact hb ha hc hd]
      · unfold inc toP; push_cast; ring
      · have h2 : ori (toP a) (toP b) (toP c) < 0 := lt_of_le_of_ne (not_lt.mp h) hne
        rw [hori] at h2
        exact_mod_cast h2
  have hp := (norm ⟨a, b, c⟩).pow_inc ho.ne' (toP d)
  rw [disc_iff nd, inside_iff nd]
  have c1 : 0 ≤ inCircle a b c d ↔ (0 : ℚ) ≤ inCircle a b c d := by exact_mod_cast Iff.rfl
  have c2 : 0 < inCircle a b c d ↔ (0 : ℚ) < inCircle a b c d := by exact_mod_cast Iff.rfl
  rw [c1, c2, hi]
  refine ⟨⟨fun h => ?_, fun h => ?_⟩, ⟨fun h => ?_, fun h => ?_⟩⟩
  · by_contra hn; have := mul_pos ho (not_le.mp hn); linarith
  · have := mul_nonneg ho.le (neg_nonneg.mpr h); linarith
  · by_contra hn; have := mul_nonneg ho.le (not_lt.mp hn); linarith
  · have := mul_pos ho (neg_pos.mpr h); linarith

example : I16 ⟨-32768, 32767⟩ ∧ NonDegenerate ⟨⟨-32768, -32768⟩, ⟨32767, 5⟩, ⟨7, 32767⟩⟩ := by
  refine ⟨by unfold I16; norm_num, ?_⟩
  unfold NonDegenerate area2 loc; norm_num

/-! ### C18, C19 -/

/-- **C18** (partial: under `Arith` for the history followed by an insertion of the point): the box consulted for an image point lists every live triangle
whose closed circumscribed disc contains the point. -/
theorem c18_grid_complete_partial {p : Pt} (A : Arith g fl w h (ops ++ [Op.ins p])) (H : Hist w h ops s m)
    (e : exec g fl w h ops = some d) (hp : InImg w h p) :
    ∃ c, g.cell p = some c ∧ ∀ i t, d.tris[i]? = some t → t.freed = false → InDisc t p → i ∈ d.cells c.1 c.2 := by
  obtain ⟨I, -⟩ := (A.pre (List.prefix_append _ _)).inv H e
  obtain ⟨c, hc⟩ := A.geo.cell p hp
  refine ⟨c, hc, ?_⟩
  intro i t hi hf hin
  have ht : t ∈ live d := mem_live.mpr ⟨hf, i, hi⟩
  have nd := I.nondeg ht
  have okv : ∀ v, IsVertex t v → Ok w h v := by
    intro v hv
    rcases (I.vertex_iff v).mp ⟨t, ht, hv⟩ with h1 | h1
    · exact Or.inl (I.img v h1)
    · exact Or.inr ((isVertex_bool _ _).mpr h1)
  refine (I.slots.cell_iff _ _ _).mpr ⟨t, hi, hf, ?_⟩
  exact A.geo.cover t.a t.b t.c p c (okv _ (Or.inl rfl)) (okv _ (Or.inr (Or.inl rfl))) (okv _ (Or.inr (Or.inr rfl))) hp (by simp)
    ((nondeg_iff t).mp nd) (fun v hv => I.inv.del _ (List.mem_map_of_mem ht) _ (Or.inr hv)) ((disc_iff nd p).mp hin) hc

example : ∃ d, exec (gridGeo ieee 40 30) (rne 53) 40 30 demoOps = some d ∧
    ∃ c, (gridGeo ieee 40 30).cell ⟨20, 15⟩ = some c ∧ ∀ i t, d.tris[i]? = some t → t.freed = false →
      InDisc t ⟨20, 15⟩ → i ∈ d.cells c.1 c.2 :=
  let ⟨d, e⟩ := demo_exec
  ⟨d, e, c18_grid_complete_partial (arith_ieee demo_size (by decide)) demo_hist e ⟨by norm_num, by norm_num, by norm_num, by norm_num⟩⟩

/-- **C19**: in every state reached by a history of insertions of image points and of removals, with any
geometry of the grid and any rounding, as long as at most 65536 slots were allocated: each box lists exactly
the live triangles whose circle covers it, each once. -/
theorem c19_cells (k : SizeOk w h) (ho : ∀ p, Op.ins p ∈ ops → InImg w h p) (e : exec g fl w h ops = some d)
    (hl : d.tris.length ≤ 65536) (x y : Nat) : (d.cells x y).Nodup ∧
      ∀ i, i ∈ d.cells x y ↔ ∃ t, d.tris[i]? = some t ∧ t.freed = false ∧ g.cover t.a t.b t.c x y = true := by
  obtain ⟨S, -⟩ := exec_back k ops ho e hl
  exact ⟨S.cell_nodup x y, S.cell_iff x y⟩

/-- **C11**: with any geometry and any rounding, the number of slots is the largest number of
triangles alive after one of the calls; the free list holds every freed slot once. -/
theorem c11_slots (k : SizeOk w h) (ho : ∀ p, Op.ins p ∈ ops → InImg w h p) (e : exec g fl w h ops = some d)
    (hl : d.tris.length ≤ 65536) :
    (∃ pre d', pre <+: ops ∧ exec g fl w h pre = some d' ∧ d.tris.length = (live d').length) ∧
    (∀ pre d', pre <+: ops → exec g fl w h pre = some d' → (live d').length ≤ d.tris.length) ∧
    d.free.Nodup ∧ ∀ i, i ∈ d.free ↔ ∃ t, d.tris[i]? = some t ∧ t.freed = true := by
  obtain ⟨S, -, h1, h2⟩ := exec_back k ops ho e hl
  exact ⟨h1, h2, S.free_nodup, S.free_iff⟩

example : ∃ d, exec (gridGeo ieee 40 30) (rne 53) 40 30 demoOps = some d ∧ d.tris.length ≤ 65536 ∧
    ∀ p, Op.ins p ∈ demoOps → InImg 40 30 p := by
  obtain ⟨d, e⟩ := demo_exec
  refine ⟨d, e, by rw [(c11_count_partial demo_arith demo_hist e).2]; norm_num, ?_⟩
  intro p hp
  simp only [demoOps, List.mem_cons, List.not_mem_nil, or_false, Op.ins.injEq, reduceCtorEq] at hp
  rcases hp with rfl | rfl | rfl | rfl | rfl <;> exact ⟨by norm_num, by norm_num, by norm_num, by norm_num⟩

/-- **C19**: removal while iterating over a box finds every matching triangle of the box exactly once, for
every test and every geometry of the grid, and keeps the bookkeeping. -/
theorem c19_remove_while_iterating (S : SInv g d) (check : Bool) (q : Tri → Bool) (x y : Nat) :
    ∃ d' acc, removeLoop g check q x y (d.cells x y).length 0 d [] = some (d', acc) ∧ SInv g d' ∧
      (live d).Perm (acc ++ live d') ∧ (∀ t ∈ acc, q t = true) ∧
      ∀ t ∈ live d', g.cover t.a t.b t.c x y = true → q t = false := by
  obtain ⟨d', acc, h1, h2, h3, h4, h5, -⟩ := removeLoop_spec check q x y (d.cells x y).length [] (d.cells x y) d []
    S (by simp) rfl (by simp)
  exact ⟨d', acc, by simpa using h1, h2, h3, h4, h5⟩

example : ∃ d, exec (gridGeo ieee 40 30) (rne 53) 40 30 demoOps = some d ∧ SInv (gridGeo ieee 40 30) d :=
  let ⟨d, e⟩ := demo_exec
  ⟨d, e, (demo_arith.inv demo_hist e).1.slots⟩

/-! ### Large images: C02, C04, C11, C18, C19 fail -/

/-- Insertion of (3856,0) into a 7711 x 7711 image with IEEE arithmetic. -/
def bigGrid : Geo := gridGeo ieee 7711 7711

/-- **C18 is false for large images**: after one insertion a live triangle through the point is in no box at
all (float32 rounds `radius + 0.001` to `radius`). -/
theorem c18_large_false : ∃ d, exec bigGrid (rne 53) 7711 7711 [.ins ⟨3856, 0⟩] = some d ∧
    ∃ c, bigGrid.cell ⟨3856, 0⟩ = some c ∧ ∃ i t, d.tris[i]? = some t ∧ t.freed = false ∧ InDisc t ⟨3856, 0⟩ ∧
      i ∉ d.cells c.1 c.2 := by
  have h : (exec bigGrid (rne 53) 7711 7711 [.ins ⟨3856, 0⟩]).bind (fun d => (bigGrid.cell ⟨3856, 0⟩).map (fun c =>
      (d.tris[2]?, decide (2 ∈ d.cells c.1 c.2)))) =
      some (some ⟨⟨-11566, -3855⟩, ⟨19278, -3855⟩, ⟨3856, 0⟩⟩, false) := by decide +kernel
  obtain ⟨d, hd, h⟩ := Option.bind_eq_some_iff.mp h
  obtain ⟨c, hc, h⟩ := Option.map_eq_some_iff.mp h
  simp only [Prod.mk.injEq, decide_eq_false_iff_not] at h
  refine ⟨d, hd, c, hc, 2, _, h.1, by decide, ?_, h.2⟩
  have nd : NonDegenerate ⟨⟨-11566, -3855⟩, ⟨19278, -3855⟩, ⟨3856, 0⟩⟩ := by unfold NonDegenerate area2 loc; norm_num
  obtain ⟨o, ho⟩ := centre_exists nd
  exact ⟨o, ho, by rw [ho.2]⟩

/-- **C02 and C04 are false for large images**: after inserting and removing (3856,0) a triangle of that point is
still there, and overlaps the bounding triangle. -/
theorem c02_c04_large_false : ∃ d, exec bigGrid (rne 53) 7711 7711 [.ins ⟨3856, 0⟩, .rem ⟨3856, 0⟩] = some d ∧
    Hist 7711 7711 [.ins ⟨3856, 0⟩, .rem ⟨3856, 0⟩] 0 1 ∧
    (∃ t ∈ live d, IsVertex t ⟨3856, 0⟩ ∧ ¬ IsVertex (newSuperTriangle 7711 7711) ⟨3856, 0⟩) ∧
    ∃ t ∈ live d, ∃ u ∈ live d, t ≠ u ∧ ∃ q, Interior t q ∧ Interior u q := by
  have h : (exec bigGrid (rne 53) 7711 7711 [.ins ⟨3856, 0⟩, .rem ⟨3856, 0⟩]).map live =
      some [⟨⟨-11566, -3855⟩, ⟨19278, -3855⟩, ⟨3856, 19278⟩⟩, ⟨⟨-11566, -3855⟩, ⟨19278, -3855⟩, ⟨3856, 0⟩⟩] := by
    decide +kernel
  obtain ⟨d, hd, h⟩ := Option.map_eq_some_iff.mp h
  refine ⟨d, hd, ?_, ?_, ?_⟩
  · have h1 := (Hist.nil (w := 7711) (h := 7711)).ins ⟨3856, 0⟩ ⟨by norm_num, by norm_num, by norm_num, by norm_num⟩
      (by decide) (by decide)
    exact h1.rem ⟨3856, 0⟩ (by decide)
  · rw [h]
    refine ⟨_, List.mem_cons_of_mem _ List.mem_cons_self, Or.inr (Or.inr rfl), ?_⟩
    have e : newSuperTriangle 7711 7711 = ⟨⟨-11566, -3855⟩, ⟨3856, 19278⟩, ⟨19278, -3855⟩⟩ := by decide
    rw [e]
    unfold IsVertex
    decide
  · rw [h]
    refine ⟨_, List.mem_cons_self, _, List.mem_cons_of_mem _ List.mem_cons_self, by decide, ⟨3856, -100⟩, ?_, ?_⟩ <;>
      · unfold Interior area2; norm_num

/-- **C03, C09 and C10 are false for large images**: inserting (3856,0) into the empty triangulation and removing it again leaves two triangles where there
was one, and locations of the bounding triangle belong to both. -/
theorem c03_c09_c10_large_false : ∃ d0 d, exec bigGrid (rne 53) 7711 7711 [] = some d0 ∧
    exec bigGrid (rne 53) 7711 7711 [.ins ⟨3856, 0⟩, .rem ⟨3856, 0⟩] = some d ∧
    Hist 7711 7711 [] 0 0 ∧ Hist 7711 7711 [.ins ⟨3856, 0⟩, .rem ⟨3856, 0⟩] 0 1 ∧
    GeneralPosition (fun v => v ∈ (0 : Multiset Pt) ∨ IsVertex (newSuperTriangle 7711 7711) v) ∧
    ¬ ((live d0).map verts).Perm ((live d).map verts) ∧
    ∃ q, Owns (newSuperTriangle 7711 7711) q ∧ ¬ ∃! t, t ∈ live d ∧ Owns t q := by
  have h0 : (exec bigGrid (rne 53) 7711 7711 []).map (fun d => (live d).length) = some 1 := by decide +kernel
  have h : (exec bigGrid (rne 53) 7711 7711 [.ins ⟨3856, 0⟩, .rem ⟨3856, 0⟩]).map live =
      some [⟨⟨-11566, -3855⟩, ⟨19278, -3855⟩, ⟨3856, 19278⟩⟩, ⟨⟨-11566, -3855⟩, ⟨19278, -3855⟩, ⟨3856, 0⟩⟩] := by
    decide +kernel
  obtain ⟨d0, hd0, h0⟩ := Option.map_eq_some_iff.mp h0
  obtain ⟨d, hd, h⟩ := Option.map_eq_some_iff.mp h
  have e : newSuperTriangle 7711 7711 = ⟨⟨-11566, -3855⟩, ⟨3856, 19278⟩, ⟨19278, -3855⟩⟩ := by decide
  refine ⟨d0, d, hd0, hd, .nil, ?_, ?_, ?_, ⟨3856, -100⟩, ?_, ?_⟩
  · have h1 := (Hist.nil (w := 7711) (h := 7711)).ins ⟨3856, 0⟩ ⟨by norm_num, by norm_num, by norm_num, by norm_num⟩
      (by decide) (by decide)
    exact h1.rem ⟨3856, 0⟩ (by decide)
  · rw [e]
    intro a b c d ha hb hc hd _ nd
    simp only [Multiset.notMem_zero, false_or] at ha hb hc hd
    have self : a ≠ b ∧ b ≠ c ∧ a ≠ c := by
      unfold NonDegenerate area2 loc at nd
      refine ⟨?_, ?_, ?_⟩ <;> rintro rfl <;> exact nd (by ring)
    obtain ⟨n1, n2, n3⟩ := self
    rcases ha with rfl | rfl | rfl <;> rcases hb with rfl | rfl | rfl <;> rcases hc with rfl | rfl | rfl <;>
      rcases hd with rfl | rfl | rfl <;> simp_all
  · intro hp
    have := hp.length_eq
    rw [List.length_map, List.length_map, h0, h] at this
    simp at this
  · rw [e]
    refine ⟨1, one_pos, fun x h1 h2 => ?_⟩
    unfold Interior area2; norm_num
    right
    refine ⟨?_, ?_, ?_⟩ <;> nlinarith
  · rintro ⟨t, -, ht⟩
    rw [h] at ht
    have h1 := ht _ ⟨List.mem_cons_self, ?_⟩
    have h2 := ht _ ⟨List.mem_cons_of_mem _ List.mem_cons_self, ?_⟩
    · rw [← h1] at h2; exact absurd h2 (by decide)
    · refine ⟨1, one_pos, fun x h1 h2 => ?_⟩
      unfold Interior area2; norm_num
      left
      refine ⟨?_, ?_, ?_⟩ <;> nlinarith
    · refine ⟨1, one_pos, fun x h1 h2 => ?_⟩
      unfold Interior area2; norm_num
      left
      refine ⟨?_, ?_, ?_⟩ <;> nlinarith

/-- **C14 is false for large images**: the point that `GetClosestTo` returns was removed before. -/
theorem c14_large_false : ∃ d, exec bigGrid (rne 53) 7711 7711 [.ins ⟨3856, 0⟩, .ins ⟨100, 7000⟩, .rem ⟨3856, 0⟩] = some d ∧
    Hist 7711 7711 [.ins ⟨3856, 0⟩, .ins ⟨100, 7000⟩, .rem ⟨3856, 0⟩] {⟨100, 7000⟩} 2 ∧
    getClosestTo d ⟨3900, 10⟩ = ⟨3856, 0⟩ := by
  have h : (exec bigGrid (rne 53) 7711 7711 [.ins ⟨3856, 0⟩, .ins ⟨100, 7000⟩, .rem ⟨3856, 0⟩]).map (fun d => getClosestTo d ⟨3900, 10⟩) =
      some ⟨3856, 0⟩ := by decide +kernel
  obtain ⟨d, hd, h⟩ := Option.map_eq_some_iff.mp h
  refine ⟨d, hd, ?_, h⟩
  have h1 := (Hist.nil (w := 7711) (h := 7711)).ins ⟨3856, 0⟩ ⟨by norm_num, by norm_num, by norm_num, by norm_num⟩ (by decide) (by decide)
  have h2 := h1.ins ⟨100, 7000⟩ ⟨by norm_num, by norm_num, by norm_num, by norm_num⟩ (by decide) (by decide)
  exact h2.rem ⟨3856, 0⟩ (by decide)

/-! ### C20 -/

/-- **C20** (partial: points whose hash is not negative, in particular all points with nonnegative
coordinates): the point map with any number of buckets behaves like a bag as long as no count reaches 65536. -/
theorem c20_pointmap_partial {n : Nat} (hn : 0 < n) (ops : List Op) (hh : ∀ o ∈ ops, Incr.Hashable (Op.pt o))
    (cap : ∀ pre s, pre <+: ops → bag pre = some s → ∀ p, s.count p < 65536) :
    (bag ops = none → pmRun n ops = none) ∧
    ∀ s, bag ops = some s → ∃ pm, pmRun n ops = some pm ∧ pmNumPoints pm = s.card ∧
      ∀ p, Incr.Hashable p → pmCopies pm p = some (s.count p) ∧
        (s.count p < 65535 → (pmAdd pm p).map Prod.snd = some (s.count p + 1)) ∧
        (p ∈ s → (pmRemove pm p).map Prod.snd = some (s.count p - 1)) ∧ (p ∉ s → pmRemove pm p = none) := by
  obtain ⟨h1, h2⟩ := pmRun_spec hn ops hh cap
  refine ⟨h2, fun s hs => ?_⟩
  obtain ⟨pm, e1, e2, e3⟩ := h1 s hs
  refine ⟨pm, e1, e3, fun p hp => ⟨pmCopies_spec e2 hp, ?_, ?_, ?_⟩⟩
  · intro hc
    obtain ⟨pm', a1, -⟩ := pmAdd_spec e2 hp (by omega)
    simp [a1]
  · intro hm
    obtain ⟨pm', a1, -⟩ := pmRemove_spec e2 (p := p) (Multiset.count_pos.mpr hm)
    simp [a1]
  · intro hm
    exact pmRemove_none e2 hp.1 (Multiset.count_eq_zero.mpr hm)

/-- Points with nonnegative coordinates qualify. -/
theorem c20_nonneg {p : Pt} (h : I16 p) (hx : 0 ≤ p.x) (hy : 0 ≤ p.y) : Incr.Hashable p := ⟨h, by omega⟩

example : (∀ o ∈ demoOps, Incr.Hashable (Op.pt o)) ∧ bag demoOps = some demoBag := by
  constructor
  · intro o ho
    simp only [demoOps, List.mem_cons, List.not_mem_nil, or_false] at ho
    rcases ho with rfl | rfl | rfl | rfl | rfl | rfl <;> unfold Incr.Hashable I16 Op.pt <;> norm_num
  · decide

/-- **C20 is false for points with a negative hash**: `AddPoint` panics on an empty map. -/
theorem c20_negative_false (n : Nat) (hn : 54 < n) : pmAdd (newPointMap n) ⟨-54, 0⟩ = none := by
  have hl : (newPointMap n).length = n := by simp [newPointMap]
  unfold pmAdd slotOf
  rw [hl, if_neg (by omega)]
  have : Int.tmod ((53 + -54) * 53 + 0) (n : Int) = -53 := by
    have h2 : ((53 + -54) * 53 + 0 : Int) = -53 := by norm_num
    rw [h2, Int.neg_tmod, Int.tmod_eq_of_lt (by norm_num) (by omega)]
  simp only [this]
  rfl

/-! ### C21 -/

/-- **C21** (points of images up to 8191 pixels and their bounding vertices): on points in different directions
the comparator is the strict order by angle, never panics, and the sorted list is the only one in
increasing order. -/
theorem c21_direction_sort (k : SizeOk w h) {p : Pt} (hp : InImg w h p) {L : List Pt} (hn : L.Nodup)
    (hok : ∀ u ∈ L, Ok w h u ∧ u ≠ p)
    (hd : ∀ u ∈ L, ∀ v ∈ L, u ≠ v → ¬ SameDir (toP p) (toP u) (toP v)) :
    (∀ u ∈ L, ∀ v ∈ L, u ≠ v → (hullLess p u v = some true ↔ AngLt (toP p) (toP u) (toP v)) ∧
      (hullLess p u v = some true ↔ hullLess p v u = some false)) ∧
    (∀ u ∈ L, ∀ v ∈ L, ∀ x ∈ L, u ≠ v → v ≠ x → u ≠ x → hullLess p u v = some true → hullLess p v x = some true →
      hullLess p u x = some true) ∧
    ∃ M, hullSort p L = some M ∧ M.Perm L ∧ M.Pairwise (fun u v => hullLess p u v = some true) ∧
      ∀ M', M'.Perm L → M'.Pairwise (fun u v => hullLess p u v = some true) → M' = M := by
  classical
  have cmp : ∀ u ∈ L, ∀ v ∈ L, u ≠ v → (hullLess p u v = some true ∧ AngLt (toP p) (toP u) (toP v)) ∨
      (hullLess p u v = some false ∧ AngLt (toP p) (toP v) (toP u)) := by
    intro u hu v hv huv
    exact hullLess_spec k (hok v hv).1 (hok u hu).1 hp (hok v hv).2 (hok u hu).2 (hd u hu v hv huv)
  have iff1 : ∀ u ∈ L, ∀ v ∈ L, u ≠ v → (hullLess p u v = some true ↔ AngLt (toP p) (toP u) (toP v)) := by
    intro u hu v hv huv
    rcases cmp u hu v hv huv with ⟨e, a⟩ | ⟨e, a⟩
    · simp [e, a]
    · simp [e, a.asymm]
  have hne : ∀ u ∈ L, toP u ≠ toP p := fun u hu he => (hok u hu).2 (toP_inj he)
  refine ⟨?_, ?_, ?_⟩
  · intro u hu v hv huv
    rcases cmp u hu v hv huv with ⟨e, a⟩ | ⟨e, a⟩ <;> rcases cmp v hv u hu (Ne.symm huv) with ⟨e', a'⟩ | ⟨e', a'⟩
    · exact absurd a' a.asymm
    · simp [e, e', a]
    · simp [e, e', a.asymm]
    · exact absurd a' a.asymm
  · intro u hu v hv x hx huv hvx hux h1 h2
    rw [iff1 u hu v hv huv] at h1
    rw [iff1 v hv x hx hvx] at h2
    rw [iff1 u hu x hx hux]
    exact h1.trans (hne u hu) (hne v hv) (hne x hx) h2
  · obtain ⟨M, h1, h2, h3⟩ := hullSort_spec k hp hn hok hd
    have conv : ∀ N : List Pt, N.Perm L → (N.Pairwise (fun u v => hullLess p u v = some true) ↔
        N.Pairwise (fun u v => AngLt (toP p) (toP u) (toP v))) := by
      intro N hN
      have nd : N.Nodup := hN.nodup_iff.mpr hn
      constructor
      · intro hp'
        refine (hp'.and nd).imp_of_mem ?_
        intro u v hu hv ⟨h, hne⟩
        exact (iff1 u (hN.subset hu) v (hN.subset hv) hne).mp h
      · intro hp'
        refine (hp'.and nd).imp_of_mem ?_
        intro u v hu hv ⟨h, hne⟩
        exact (iff1 u (hN.subset hu) v (hN.subset hv) hne).mpr h
    refine ⟨M, h1, h2, (conv M h2).mpr h3, ?_⟩
    intro M' hp' hs'
    have hs2 := (conv M' hp').mp hs'
    refine (hp'.trans h2.symm).eq_of_pairwise ?_ hs2 h3
    intro a b ha hb hab hba
    exact absurd hba hab.asymm

example : ∃ M, hullSort ⟨20, 15⟩ [⟨30, 10⟩, ⟨10, 10⟩, ⟨20, 25⟩] = some M ∧ M = [⟨10, 10⟩, ⟨30, 10⟩, ⟨20, 25⟩] :=
  ⟨_, by decide, rfl⟩

/-- The hypotheses of `c21_direction_sort` hold for that list. -/
example : ∀ u ∈ [(⟨30, 10⟩ : Pt), ⟨10, 10⟩, ⟨20, 25⟩], ∀ v ∈ [(⟨30, 10⟩ : Pt), ⟨10, 10⟩, ⟨20, 25⟩], u ≠ v →
    ¬ SameDir (toP ⟨20, 15⟩) (toP u) (toP v) := by
  intro u hu v hv huv
  simp only [List.mem_cons, List.not_mem_nil, or_false] at hu hv
  rcases hu with rfl | rfl | rfl <;> rcases hv with rfl | rfl | rfl <;>
    first | exact absurd rfl huv | (unfold SameDir ori toP; norm_num)

/-- The panic of the comparator is reached for two points in the same direction. -/
theorem c21_same_direction_panics : hullLess ⟨0, 0⟩ ⟨1, 1⟩ ⟨2, 2⟩ = none := by decide

/-- C21 needs the range of coordinates: for far apart int16 points the differences wrap, and the comparator
orders (20000, 0) before (-20001, 0) around (-20000, 1), although the latter has the smaller angle. -/
theorem c21_range_false : hullLess ⟨-20000, 1⟩ ⟨20000, 0⟩ ⟨-20001, 0⟩ = some true ∧
    AngLt (toP ⟨-20000, 1⟩) (toP ⟨-20001, 0⟩) (toP ⟨20000, 0⟩) := by
  constructor
  · decide
  · left; unfold Lower toP; norm_num

end Verif.Props

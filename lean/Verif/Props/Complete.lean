import Verif.Props.Delaunay
import Verif.Vor.Corner

/-!
# Which triangles are reported (C74)

C01 says that the circles of reported triangles are empty.  Here is the other direction: a triangle with an empty circle is reported.
-/

namespace Verif.Props

open Verif.Tri Verif.Spec Verif.Float Verif.Vor
open Verif.Incr hiding Entry

variable {g : Geo} {fl : ℚ → ℚ} {w h : Nat} {ops : List Op} {s : Multiset Pt} {m : Nat} {d : D}

/-- **C74** (partial: under `Arith`): if three stored points are not collinear and all other stored points, and the vertices of the bounding triangle,
lie strictly outside their circle, `IterTriangles` reports the triangle of these points. -/
theorem c74_complete_partial (A : Arith g fl w h ops) (H : Hist w h ops s m) (e : exec g fl w h ops = some d) {t : Tri} {o : P2}
    (hs : t.a ∈ s ∧ t.b ∈ s ∧ t.c ∈ s) (hn : NonDegenerate t) (hc : Centre t o)
    (ho : ∀ v, (v ∈ s ∨ IsVertex (newSuperTriangle w h) v) → ¬ IsVertex t v → d2 o t.a < d2 o v) :
    ∃ t' ∈ iterTriangles d, verts t' = verts t := by
  have I := (A.inv H e).1
  obtain ⟨n1, n2, n3⟩ := nondeg_ne (a := t.a) (b := t.b) (c := t.c) (by exact hn)
  have hcor : Corner w h s t.a o := by
    refine ⟨⟨t.b, t.c, Or.inl hs.2.1, Or.inl hs.2.2, n1.symm, n3.symm, n2, hc.1.symm, hc.2.symm⟩, ?_⟩
    intro x hx
    by_cases hv : IsVertex t x
    · rcases hv with rfl | rfl | rfl
      · exact le_rfl
      · exact hc.1.le
      · exact hc.2.le
    · exact (ho x hx hv).le
  obtain ⟨t', ht', hv', c1, c2⟩ := tri_of_corner I (Or.inl hs.1) hcor
  have ha : d2 o t'.a = d2 o t.a := by
    rcases (isVertex_bool t' t.a).mp hv' with e | e | e
    · rw [e]
    · rw [e, c1]
    · rw [e, c2]
  have site : ∀ v, IsVertex t' v → IsVertex t v := by
    intro v hv
    by_contra hcon
    have := ho v ((I.vertex_iff v).mp ⟨t', ht', hv⟩) hcon
    rcases hv with rfl | rfl | rfl
    · rw [ha] at this; exact lt_irrefl _ this
    · rw [← c1, ha] at this; exact lt_irrefl _ this
    · rw [← c2, ha] at this; exact lt_irrefl _ this
  have mem : ∀ v, IsVertex t v → v ∈ s := by
    rintro v (rfl | rfl | rfl)
    exacts [hs.1, hs.2.1, hs.2.2]
  refine ⟨t', (I.iter_iff A.size t').mpr ⟨ht', mem _ (site _ (Or.inl rfl)), mem _ (site _ (Or.inr (Or.inl rfl))),
    mem _ (site _ (Or.inr (Or.inr rfl)))⟩, ?_⟩
  obtain ⟨m1, m2, m3⟩ := nondeg_ne (a := t'.a) (b := t'.b) (c := t'.c) (by exact I.nondeg ht')
  refine Finset.eq_of_subset_of_card_le ?_ ?_
  · intro v hv
    exact (mem_verts t v).mpr (site v ((mem_verts t' v).mp hv))
  · have e1 : (verts t').card = 3 := Finset.card_eq_three.mpr ⟨_, _, _, m1, m3, m2, rfl⟩
    have e2 : (verts t).card = 3 := Finset.card_eq_three.mpr ⟨_, _, _, n1, n3, n2, rfl⟩
    omega

/-- The three points that `demoOps` leaves. -/
def demoTri : Tri := ⟨⟨10, 10⟩, ⟨30, 10⟩, ⟨20, 25⟩⟩

theorem demo_circle : (demoTri.a ∈ demoBag ∧ demoTri.b ∈ demoBag ∧ demoTri.c ∈ demoBag) ∧ NonDegenerate demoTri ∧ Centre demoTri ⟨20, 85 / 6⟩ ∧
    ∀ v, (v ∈ demoBag ∨ IsVertex (newSuperTriangle 40 30) v) → ¬ IsVertex demoTri v → d2 ⟨20, 85 / 6⟩ demoTri.a < d2 ⟨20, 85 / 6⟩ v := by
  refine ⟨by decide, by unfold NonDegenerate; decide +kernel, by unfold Centre; decide +kernel, ?_⟩
  rintro v (hv | rfl | rfl | rfl) hn
  · exfalso
    apply hn
    have : ∀ v ∈ demoBag, v = demoTri.a ∨ v = demoTri.b ∨ v = demoTri.c := by decide
    exact this v hv
  all_goals decide +kernel

/-- They are reported as a triangle. -/
example : ∃ d, exec (gridGeo ieee 40 30) (rne 53) 40 30 demoOps = some d ∧ ∃ t' ∈ iterTriangles d, verts t' = verts demoTri :=
  let ⟨d, e⟩ := demo_exec
  let ⟨h1, h2, h3, h4⟩ := demo_circle
  ⟨d, e, c74_complete_partial demo_arith demo_hist e h1 h2 h3 h4⟩

/-- With C01: three stored points that are on one circle with no further stored point or bounding vertex form a reported triangle exactly if the circle
is empty. -/
theorem c74_iff_partial (A : Arith g fl w h ops) (H : Hist w h ops s m) (e : exec g fl w h ops = some d) {t : Tri} {o : P2}
    (hs : t.a ∈ s ∧ t.b ∈ s ∧ t.c ∈ s) (hn : NonDegenerate t) (hc : Centre t o)
    (hu : ∀ v, (v ∈ s ∨ IsVertex (newSuperTriangle w h) v) → d2 o v = d2 o t.a → IsVertex t v) :
    (∃ t' ∈ iterTriangles d, verts t' = verts t) ↔ ∀ v, (v ∈ s ∨ IsVertex (newSuperTriangle w h) v) → d2 o t.a ≤ d2 o v := by
  constructor
  · rintro ⟨t', ht', hv⟩ v hsv
    have I := (A.inv H e).1
    have ht := ((I.iter_iff A.size t').mp ht').1
    have eq : ∀ v, IsVertex t' v → d2 o v = d2 o t.a := by
      intro v hv'
      rw [← mem_verts, hv, mem_verts] at hv'
      rcases hv' with rfl | rfl | rfl
      · rfl
      · exact hc.1.symm
      · exact hc.2.symm
    have hc' : Centre t' o := ⟨by rw [eq _ (Or.inl rfl), eq _ (Or.inr (Or.inl rfl))], by rw [eq _ (Or.inl rfl), eq _ (Or.inr (Or.inr rfl))]⟩
    have := I.inv.del (norm t') (List.mem_map_of_mem ht) (toP v) (site_toP hsv)
    rw [pow_d2 (I.nondeg ht) hc', eq _ (Or.inl rfl)] at this
    linarith
  · intro h
    exact c74_complete_partial A H e hs hn hc fun v hsv hv => lt_of_le_of_ne (h v hsv) fun e => hv (hu v hsv e.symm)

example : ∃ d, exec (gridGeo ieee 40 30) (rne 53) 40 30 demoOps = some d ∧ ((∃ t' ∈ iterTriangles d, verts t' = verts demoTri) ↔
    ∀ v, (v ∈ demoBag ∨ IsVertex (newSuperTriangle 40 30) v) → d2 ⟨20, 85 / 6⟩ demoTri.a ≤ d2 ⟨20, 85 / 6⟩ v) :=
  let ⟨d, e⟩ := demo_exec
  let ⟨h1, h2, h3, h4⟩ := demo_circle
  ⟨d, e, c74_iff_partial demo_arith demo_hist e h1 h2 h3 fun v hv he => by_contra fun hn => absurd he (h4 v hv hn).ne'⟩

end Verif.Props

import Verif.Incr.Remove
import Verif.Spec.Plane

/-!
# Histories
-/

namespace Verif.Incr

open Verif.Tri Verif.Spec

/-- One call. -/
def step (g : Geo) (fl : ℚ → ℚ) (d : D) : Op → Option D
  | .ins p => insert g d p
  | .rem p => remove g fl d p

/-- A sequence of calls. -/
def run (g : Geo) (fl : ℚ → ℚ) (d : D) (ops : List Op) : Option D := ops.foldlM (step g fl) d

/-- A new triangulation followed by a sequence of calls. -/
def exec (g : Geo) (fl : ℚ → ℚ) (w h : Nat) (ops : List Op) : Option D := do
  let d ← newDelaunay g w h
  run g fl d ops

theorem run_snoc (g : Geo) (fl : ℚ → ℚ) (d : D) (ops : List Op) (o : Op) :
    run g fl d (ops ++ [o]) = (run g fl d ops).bind (fun d => step g fl d o) := by
  unfold run
  rw [List.foldlM_append]
  simp

theorem exec_snoc (g : Geo) (fl : ℚ → ℚ) (w h : Nat) (ops : List Op) (o : Op) :
    exec g fl w h (ops ++ [o]) = (exec g fl w h ops).bind (fun d => step g fl d o) := by
  unfold exec
  cases newDelaunay g w h with
  | none => rfl
  | some d => simp only [Option.bind_eq_bind, Option.bind_some]; rw [run_snoc]

theorem new_spec (g : Geo) {w h : Nat} (k : SizeOk w h) :
    ∃ d, newDelaunay g w h = some d ∧ DInv g w h d 0 ∧ d.tris.length = 1 := by
  have hok : Ok w h (newSuperTriangle w h).a := Or.inr (by simp [Tri.hasVertex])
  have hfree : (newSuperTriangle w h).freed = false := by
    have := hok.marker k
    simpa [Tri.freed] using this
  have S0 : SInv g ⟨[], [], fun _ _ => [], [], ⟨⟨0, 0⟩, ⟨0, 0⟩, ⟨0, 0⟩⟩, 0, 0⟩ :=
    ⟨by simp, by simp, by simp, by simp⟩
  obtain ⟨d, a1, a2, a3, a4, a5, a6, a7, a8⟩ := addTriangle_spec S0 hfree (by simp [live])
  unfold newDelaunay
  simp only [a1, Option.bind_eq_bind, Option.bind_some]
  have hl : (live d).Perm [newSuperTriangle w h] := by simpa [live] using a3
  have hlen : (live d).length = 1 := by rw [hl.length_eq]; rfl
  refine ⟨_, rfl, ⟨⟨a2.free_nodup, a2.free_iff, a2.cell_nodup, a2.cell_iff⟩, rfl, ?_, by simp, ?_, ?_, ?_, ?_⟩, ?_⟩
  · have I := Inv.init (super_norm k).2
    refine Inv_congr (Inv_perm I ?_) ?_
    · exact (hl.map norm).symm
    · intro x; unfold VS; simp
  · simpa using PMRep.new (n := 100) (by norm_num)
  · simpa using a7
  · simp [pmNumPoints, newPointMap]
  · simpa using a8
  · simp only; rw [a4, hlen]; rfl

/-- A stored point was inserted. -/
theorem _root_.Verif.Spec.Hist.inserted {w h : Nat} {ops : List Op} {s : Multiset Pt} {m : Nat} (H : Hist w h ops s m) :
    ∀ p ∈ s, Op.ins p ∈ ops := by
  induction H with
  | nil => simp
  | ins q H hp hc hd ih =>
    intro p h'
    rcases Multiset.mem_cons.mp h' with rfl | h'
    · simp
    · exact List.mem_append_left _ (ih p h')
  | rem q H hm ih => exact fun p h' => List.mem_append_left _ (ih p (Multiset.mem_of_mem_erase h'))

/-- **Main theorem**: every admissible history succeeds and ends in a state satisfying the invariant,
with `2 m + 1` slots allocated.  The grid has to find the triangles around inserted points only; the rounding of
scores matters only if the history removes points. -/
theorem exec_spec {g : Geo} {w h : Nat} (k : SizeOk w h) {fl : ℚ → ℚ} {ops : List Op}
    (G : GeoOK g w h (fun p => Op.ins p ∈ ops)) (hf : (∃ p, Op.rem p ∈ ops) → Faithful fl (side w h)) {s : Multiset Pt} {m : Nat}
    (H : Hist w h ops s m) :
    ∃ d, exec g fl w h ops = some d ∧ DInv g w h d s ∧ d.tris.length = 2 * m + 1 := by
  induction H with
  | nil =>
    obtain ⟨d, h1, h2, h3⟩ := new_spec g k
    exact ⟨d, by simp [exec, h1, run], h2, by simpa using h3⟩
  | ins p H hp hc hd ih =>
    obtain ⟨d, h1, h2, h3⟩ := ih (G.mono fun q hq => List.mem_append_left _ hq) (fun ⟨q, hq⟩ => hf ⟨q, by simp [hq]⟩)
    obtain ⟨d', i1, i2, i3⟩ := insert_spec k G h2 hp (by simp) hc hd
    refine ⟨d', by rw [exec_snoc, h1]; exact i1, i2, ?_⟩
    have := count_live i2.inv
    rw [List.length_map] at this
    rw [i3, h3, this]
    omega
  | rem p H hm ih =>
    obtain ⟨d, h1, h2, h3⟩ := ih (G.mono fun q hq => List.mem_append_left _ hq) (fun _ => hf ⟨p, by simp⟩)
    obtain ⟨d', i1, i2, i3⟩ := remove_spec k G (hf ⟨p, by simp⟩) h2 hm (List.mem_append_left _ (H.inserted p hm)) (le_trans H.dedup_le.1 H.dedup_le.2)
    exact ⟨d', by rw [exec_snoc, h1]; exact i1, i2, by rw [i3, h3]⟩

end Verif.Incr

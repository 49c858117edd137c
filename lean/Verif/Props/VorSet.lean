import Verif.Props.Voronoi
import Verif.Vor.Set

/-!
# `Set` of Voronoi diagrams (C75)
-/

namespace Verif.Props

open Verif.Tri Verif.Spec Verif.Float Verif.Vor
open Verif.Incr hiding Entry

variable {g : Geo} {F : FloatOps} {srt : Sorter} {w h : Nat} {ops ops' : List Op} {v o : V}

/-- **C75**: after `v.Set(o)`, for two diagrams of the same image size, with any histories and any spare capacities of the slices of
`v`, `IterPolygons` reports the polygons of `o` in the same order; and every sequence of further calls panics exactly if it panics on `o`,
and otherwise leads to the same reported polygons and the same triangles. -/
theorem c75_set (e : vExec g F srt w h ops = some v) (e' : vExec g F srt w h ops' = some o) (bufs : VBufs) :
    iterPolygons (vSet v bufs o) = iterPolygons o ∧
    ∀ calls : List Op,
      (calls.foldlM (vStep g F srt) (vSet v bufs o)).map iterPolygons = (calls.foldlM (vStep g F srt) o).map iterPolygons ∧
      (calls.foldlM (vStep g F srt) (vSet v bufs o)).map (fun x => iterTriangles x.d) =
        (calls.foldlM (vStep g F srt) o).map (fun x => iterTriangles x.d) := by
  obtain ⟨a1, a2, a3, a4⟩ := vExec_keep e
  obtain ⟨b1, b2, b3, b4⟩ := vExec_keep e'
  have hs := vSet_strip v bufs o ((exec_pmlen a1).trans (exec_pmlen b1).symm) (a2.trans b2.symm) (a3.trans b3.symm) (a4.trans b4.symm)
  have it : ∀ x : V, iterPolygons x = iterPolygons (vstrip x) := fun _ => rfl
  have it' : ∀ x : V, iterTriangles x.d = iterTriangles (vstrip x).d := fun _ => rfl
  refine ⟨by rw [it, hs, ← it], fun calls => ?_⟩
  have hr := vRun_strip (g := g) (F := F) (srt := srt) calls hs
  have f1 : ∀ x : Option V, x.map iterPolygons = (x.map vstrip).map iterPolygons := by
    intro x; cases x <;> rfl
  have f2 : ∀ x : Option V, x.map (fun x => iterTriangles x.d) = (x.map vstrip).map (fun x => iterTriangles x.d) := by
    intro x; cases x <;> rfl
  exact ⟨by rw [f1, hr, ← f1], by rw [f2, hr, ← f2]⟩

/-- Setting a new diagram from one with polygons, and going on. -/
example (bufs : VBufs) : ∃ v o, vExec (gridGeo ieee 40 30) ieee goSort 40 30 [] = some v ∧
    vExec (gridGeo ieee 40 30) ieee goSort 40 30 demoOps = some o ∧ iterPolygons v = [] ∧ iterPolygons o ≠ [] ∧
    iterPolygons (vSet v bufs o) = iterPolygons o := by
  obtain ⟨v, e⟩ : ∃ v, vExec (gridGeo ieee 40 30) ieee goSort 40 30 [] = some v ∧ iterPolygons v = [] := by
    have : ((vExec (gridGeo ieee 40 30) ieee goSort 40 30 []).map iterPolygons) = some [] := by decide +kernel
    cases hv : vExec (gridGeo ieee 40 30) ieee goSort 40 30 [] with
    | none => rw [hv] at this; cases this
    | some v => rw [hv] at this; exact ⟨v, rfl, by simpa using this⟩
  obtain ⟨o, e'⟩ : ∃ o, vExec (gridGeo ieee 40 30) ieee goSort 40 30 demoOps = some o ∧ iterPolygons o ≠ [] := by
    have : ((vExec (gridGeo ieee 40 30) ieee goSort 40 30 demoOps).map fun o => decide (iterPolygons o ≠ [])) = some true := by
      decide +kernel
    cases hv : vExec (gridGeo ieee 40 30) ieee goSort 40 30 demoOps with
    | none => rw [hv] at this; cases this
    | some v => rw [hv] at this; exact ⟨v, rfl, by simpa using this⟩
  exact ⟨v, o, e.1, e'.1, e.2, e'.2, (c75_set e.1 e'.1 bufs).1⟩

end Verif.Props

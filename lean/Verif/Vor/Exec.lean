import Verif.Vor.Inv
import Verif.Incr.History

/-!
# Histories of calls on a Voronoi diagram
-/

namespace Verif.Vor

open Verif.Incr hiding trunc step run Entry
open Verif.Tri Verif.Spec Verif.Float

/-- One call. -/
def vStep (g : Geo) (F : FloatOps) (srt : Sorter) (v : V) : Op → Option V
  | .ins p => vInsert g F srt v p
  | .rem p => vRemove g F srt v p

/-- A new diagram followed by a sequence of calls. -/
def vExec (g : Geo) (F : FloatOps) (srt : Sorter) (w h : Nat) (ops : List Op) : Option V :=
  (newVoronoi g w h).bind fun v => ops.foldlM (vStep g F srt) v

variable {g : Geo} {F : FloatOps} {srt : Sorter} {w h : Nat}

theorem vExec_snoc (ops : List Op) (o : Op) :
    vExec g F srt w h (ops ++ [o]) = (vExec g F srt w h ops).bind (fun v => vStep g F srt v o) := by
  unfold vExec
  cases newVoronoi g w h with
  | none => rfl
  | some v => simp [List.foldlM_append]

/-- Every admissible history ends in a state satisfying the invariant, or it panics because, after some of its calls, the polygon
of some stored point cannot be computed. -/
theorem vExec_spec (k : SizeOk w h) (R : Rnd 53 F.r64) {ops : List Op} (G : GeoOK g w h (fun p => Op.ins p ∈ ops))
    (hf : (∃ p, Op.rem p ∈ ops) → Faithful F.r64 (side w h)) {s : Multiset Pt} {m : Nat} (H : Hist w h ops s m) :
    (∃ v, vExec g F srt w h ops = some v ∧ VInv g F srt w h v s) ∨
      (vExec g F srt w h ops = none ∧ ∃ ops' s' m', ops' <+: ops ∧ Hist w h ops' s' m' ∧ ∃ q ∈ s', ¬ Computable F srt w h s' q) := by
  induction H with
  | nil =>
    obtain ⟨d, h1, h2, _⟩ := new_spec g k
    obtain ⟨v, e, i⟩ := new_inv (F := F) (srt := srt) ⟨d, h1, h2⟩
    exact Or.inl ⟨v, by simp [vExec, e], i⟩
  | ins p H hp hc hd ih =>
    rw [vExec_snoc]
    rcases ih (G.mono fun q hq => List.mem_append_left _ hq) (fun ⟨q, hq⟩ => hf ⟨q, by simp [hq]⟩) with ⟨v, e, i⟩ | ⟨e, ops', s', m', pre, H', hq⟩
    · rw [e]
      rcases vInsert_spec k R G i hp (Hist.ins p H hp hc hd).inserted hc hd with ⟨v', e', i'⟩ | ⟨e', q⟩
      · exact Or.inl ⟨v', e', i'⟩
      · exact Or.inr ⟨e', _, _, _, List.prefix_refl _, Hist.ins p H hp hc hd, q⟩
    · rw [e]
      exact Or.inr ⟨rfl, ops', s', m', pre.trans (List.prefix_append _ _), H', hq⟩
  | rem p H hm ih =>
    rw [vExec_snoc]
    rcases ih (G.mono fun q hq => List.mem_append_left _ hq) (fun ⟨q, hq⟩ => hf ⟨q, by simp [hq]⟩) with ⟨v, e, i⟩ | ⟨e, ops', s', m', pre, H', hq⟩
    · rw [e]
      rcases vRemove_spec k R G (hf ⟨p, by simp⟩) i hm (fun x hx => List.mem_append_left _ (H.inserted x hx)) (le_trans H.dedup_le.1 H.dedup_le.2) with ⟨v', e', i'⟩ | ⟨e', q⟩
      · exact Or.inl ⟨v', e', i'⟩
      · exact Or.inr ⟨e', _, _, _, List.prefix_refl _, Hist.rem p H hm, q⟩
    · rw [e]
      exact Or.inr ⟨rfl, ops', s', m', pre.trans (List.prefix_append _ _), H', hq⟩

end Verif.Vor

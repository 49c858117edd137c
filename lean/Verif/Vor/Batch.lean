import Verif.Vor.Exec

/-!
# `Voronoi` and `IterPolygons`
-/

namespace Verif.Vor

open Verif.Incr hiding trunc step run
open Verif.Tri Verif.Spec Verif.Float

/-- The point an entry stands for. -/
def ePt (e : Entry) : Pt := ⟨w16 e.x, w16 e.y⟩

theorem ePt_ent {p : Pt} (hp : I16 p) (n : Nat) : ePt (ent p n) = p := by
  obtain ⟨h1, h2, h3, h4⟩ := hp
  obtain ⟨x, y⟩ := p
  have : ∀ z : Int, -32768 ≤ z → z ≤ 32767 → w16 ((u16 z : Nat) : Int) = z := by
    intro z a b
    unfold w16 u16
    rw [Int.bmod_def]
    omega
  simp only [ePt, ent]
  rw [this x h1 h2, this y h3 h4]

theorem bucket_points {b : List Entry} {S : Pt → Nat} (h : BRep b S) :
    (b.map ePt).Nodup ∧ ∀ p, p ∈ b.map ePt ↔ I16 p ∧ 0 < S p := by
  have hm : ∀ p, p ∈ b.map ePt ↔ I16 p ∧ 0 < S p := by
    intro p
    rw [List.mem_map]
    constructor
    · rintro ⟨e, he, rfl⟩
      obtain ⟨p, hp, h0, rfl⟩ := (h.2 e).mp he
      rw [ePt_ent hp]
      exact ⟨hp, h0⟩
    · rintro ⟨hp, h0⟩
      exact ⟨_, (h.2 _).mpr ⟨p, hp, h0, rfl⟩, ePt_ent hp _⟩
  refine ⟨?_, hm⟩
  refine List.Nodup.map_on ?_ (List.Nodup.of_map _ h.1)
  intro e he e' he' heq
  obtain ⟨p, hp, h0, rfl⟩ := (h.2 e).mp he
  obtain ⟨p', hp', h0', rfl⟩ := (h.2 e').mp he'
  rw [ePt_ent hp, ePt_ent hp'] at heq
  rw [heq]

/-- `IterPoints` reports every stored point once. -/
theorem iterPoints_spec {pm : PMap} {c : Pt → Nat} (h : PMRep pm c) :
    (iterPoints pm).Nodup ∧ ∀ p, p ∈ iterPoints pm ↔ 0 < c p := by
  have e : iterPoints pm = (pm.map (List.map ePt)).flatten := by
    unfold iterPoints
    rw [← List.map_flatten]
    rfl
  have hm : ∀ (k : Nat) (b : List Entry), pm[k]? = some b → ∀ p, p ∈ b.map ePt ↔ slotOf pm p = some k ∧ 0 < c p := by
    intro k b hb p
    rw [(bucket_points (h.rep k b hb)).2]
    constructor
    · rintro ⟨_, h0⟩
      split at h0
      · exact ⟨by assumption, h0⟩
      · omega
    · rintro ⟨hk, h0⟩
      exact ⟨(h.ok p h0).1, by rw [if_pos hk]; exact h0⟩
  rw [e]
  constructor
  · rw [List.nodup_flatten]
    constructor
    · intro l hl
      obtain ⟨b, hb, rfl⟩ := List.mem_map.mp hl
      obtain ⟨k, hk⟩ := List.mem_iff_getElem?.mp hb
      exact (bucket_points (h.rep k b hk)).1
    · rw [List.pairwise_map, List.pairwise_iff_getElem]
      intro i j hi hj hij p h1 h2
      have e1 := ((hm i _ (List.getElem?_eq_getElem hi) p).mp h1).1
      have e2 := ((hm j _ (List.getElem?_eq_getElem hj) p).mp h2).1
      rw [e1] at e2
      cases e2
      omega
  · intro p
    rw [List.mem_flatten]
    constructor
    · rintro ⟨l, hl, hp⟩
      obtain ⟨b, hb, rfl⟩ := List.mem_map.mp hl
      obtain ⟨k, hk⟩ := List.mem_iff_getElem?.mp hb
      exact ((hm k b hk p).mp hp).2
    · intro h0
      obtain ⟨k, hk⟩ := slotOf_some h.pos (h.ok p h0)
      have hlt := slotOf_lt hk
      exact ⟨_, List.mem_map_of_mem (List.getElem_mem hlt), (hm k _ (List.getElem?_eq_getElem hlt) p).mpr ⟨hk, h0⟩⟩

theorem mapM_eq {α β : Type} (f : α → Option β) (f' : α → β) : ∀ l : List α, (∀ a ∈ l, f a = some (f' a)) → l.mapM f = some (l.map f')
  | [], _ => rfl
  | a :: l, h => by
    rw [List.mapM_cons, h a (by simp), mapM_eq f f' l (fun b hb => h b (by simp [hb]))]
    rfl

/-- If the stored polygons are the ones computed from a triangulation of the same points, `Voronoi` on that and `IterPolygons` report the same
polygons, maybe in different orders. -/
theorem voronoi_perm_of {g g' : Geo} {F : FloatOps} {srt : Sorter} {w h : Nat} {v : V} {s : Multiset Pt} (I : VInv g F srt w h v s) {d : D}
    (I' : DInv g' w h d s) (hc : ∀ q l, (q, l) ∈ v.pm.flatten → cellOf g' F srt w h d q = some l) :
    ∃ ls, voronoi g' F srt w h d = some ls ∧ ls.Perm (iterPolygons v) := by
  obtain ⟨i1, i2⟩ := iterPoints_spec I'.pm
  obtain ⟨f, f1, f2, f3⟩ := I.rep
  let val : Pt → List FP := fun q => (f q).getD []
  have hval : ∀ q ∈ s, cellOf g' F srt w h d q = some (val q) := by
    intro q hq
    obtain ⟨l, hl⟩ := f3 q hq
    rw [hc q l ((f1.flatten q l).mpr hl)]
    simp [val, hl]
  have hmem : ∀ q, q ∈ iterPoints d.pm ↔ q ∈ s := by
    intro q
    rw [i2]
    exact Multiset.count_pos
  have e1 : (iterPoints d.pm).mapM (cellOf g' F srt w h d) = some ((iterPoints d.pm).map val) :=
    mapM_eq _ _ _ (fun q hq => hval q ((hmem q).mp hq))
  refine ⟨((iterPoints d.pm).map val).filter (fun l => decide (0 < l.length)), by simp [voronoi, e1], ?_⟩
  unfold iterPolygons
  refine List.Perm.filter _ ?_
  have e2 : v.pm.flatten.map Prod.snd = (v.pm.flatten.map Prod.fst).map val := by
    rw [List.map_map]
    refine List.map_congr_left ?_
    rintro ⟨q, l⟩ hm
    simp [val, (f1.flatten q l).mp hm]
  rw [e2]
  refine List.Perm.map _ ((List.perm_ext_iff_of_nodup i1 f1.keys).mpr fun q => ?_)
  rw [hmem, List.mem_map]
  constructor
  · intro hq
    obtain ⟨l, hl⟩ := f3 q hq
    exact ⟨(q, l), (f1.flatten q l).mpr hl, rfl⟩
  · rintro ⟨⟨q', l⟩, hm, rfl⟩
    exact (f2 _ _ ((f1.flatten _ l).mp hm)).1

/-- If the stored polygons are the recomputed ones, `Voronoi` and `IterPolygons` report the same polygons, maybe in different orders. -/
theorem voronoi_perm {g : Geo} {F : FloatOps} {srt : Sorter} {w h : Nat} {v : V} {s : Multiset Pt} (I : VInv g F srt w h v s)
    (hc : ∀ q l, (q, l) ∈ v.pm.flatten → cellOf g F srt w h v.d q = some l) :
    ∃ ls, voronoi g F srt w h v.d = some ls ∧ ls.Perm (iterPolygons v) := voronoi_perm_of I I.d hc

end Verif.Vor

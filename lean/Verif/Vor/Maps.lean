import Verif.Vor.Model
import Verif.Incr.PMap

/-!
# The polygon map represents a partial function
-/

namespace Verif.Vor

open Verif.Incr hiding Entry

/-- The map holds the polygon `f p` for every `p` at which `f` is defined, once. -/
structure PRep (m : PolyMap) (f : Pt → Option (List FP)) : Prop where
  pos : 0 < m.length
  ok : ∀ p l, f p = some l → ∃ k, polySlot m p = some k
  nodup : ∀ (k : Nat) (b : List (Pt × List FP)), m[k]? = some b → (b.map Prod.fst).Nodup
  mem : ∀ (k : Nat) (b : List (Pt × List FP)), m[k]? = some b → ∀ p l, (p, l) ∈ b ↔ polySlot m p = some k ∧ f p = some l

theorem polySlot_len {m m' : PolyMap} (h : m.length = m'.length) (p : Pt) : polySlot m p = polySlot m' p := by
  unfold polySlot; rw [h]

theorem polySlot_lt {m : PolyMap} {p : Pt} {k : Nat} (h : polySlot m p = some k) : k < m.length := by
  unfold polySlot at h
  by_cases h0 : m.length = 0
  · rw [if_pos h0] at h; cases h
  · rw [if_neg h0] at h
    simp only at h
    split at h
    · cases h
    · have := Option.some.inj h
      have := Int.tmod_lt_of_pos ((53 + p.x) * 53 + p.y) (b := (m.length : Int)) (by omega)
      omega

theorem polySlot_some {m : PolyMap} (hl : 0 < m.length) {p : Pt} (hp : 0 ≤ (53 + p.x) * 53 + p.y) : ∃ k, polySlot m p = some k := by
  unfold polySlot
  rw [if_neg (by omega)]
  have := Int.tmod_nonneg (m.length : Int) hp
  simp only
  rw [if_neg (by omega)]
  exact ⟨_, rfl⟩

theorem PRep.new {n : Nat} (hn : 0 < n) : PRep (List.replicate n []) (fun _ => none) := by
  refine ⟨by simpa using hn, by simp, ?_, ?_⟩ <;> intro k b hb <;> rw [List.getElem?_replicate] at hb <;> split at hb
  · cases hb; simp
  · cases hb
  · cases hb; simp
  · cases hb

theorem PRep.flatten {m : PolyMap} {f} (h : PRep m f) (p : Pt) (l : List FP) : (p, l) ∈ m.flatten ↔ f p = some l := by
  rw [List.mem_flatten]
  constructor
  · rintro ⟨b, hb, hm⟩
    obtain ⟨k, hk⟩ := List.mem_iff_getElem?.mp hb
    exact ((h.mem k b hk p l).mp hm).2
  · intro hf
    obtain ⟨k, hk⟩ := h.ok p l hf
    have hb := List.getElem?_eq_getElem (polySlot_lt hk)
    exact ⟨_, List.getElem_mem (polySlot_lt hk), (h.mem k _ hb p l).mpr ⟨hk, hf⟩⟩

theorem PRep.keys {m : PolyMap} {f} (h : PRep m f) : (m.flatten.map Prod.fst).Nodup := by
  rw [List.map_flatten, List.nodup_flatten]
  constructor
  · intro l hl
    obtain ⟨b, hb, rfl⟩ := List.mem_map.mp hl
    obtain ⟨k, hk⟩ := List.mem_iff_getElem?.mp hb
    exact h.nodup k b hk
  · rw [List.pairwise_map]
    rw [List.pairwise_iff_getElem]
    intro i j hi hj hij p h1 h2
    obtain ⟨⟨a, l⟩, ha, rfl⟩ := List.mem_map.mp h1
    obtain ⟨⟨b, l'⟩, hb, hb'⟩ := List.mem_map.mp h2
    simp only at hb'
    subst hb'
    have e1 := ((h.mem i _ (List.getElem?_eq_getElem hi) _ _).mp ha).1
    have e2 := ((h.mem j _ (List.getElem?_eq_getElem hj) _ _).mp hb).1
    rw [e1] at e2
    cases e2
    omega

theorem PRep.set {m : PolyMap} {f} (h : PRep m f) {p : Pt} {k : Nat} (hk : polySlot m p = some k) {b' : List (Pt × List FP)} (o)
    (hn : (b'.map Prod.fst).Nodup) (hm : ∀ q l, (q, l) ∈ b' ↔ polySlot m q = some k ∧ Function.update f p o q = some l) :
    PRep (m.set k b') (Function.update f p o) := by
  have hs : ∀ q, polySlot (m.set k b') q = polySlot m q := fun q => polySlot_len (by simp) q
  refine ⟨by simpa using h.pos, ?_, ?_, ?_⟩
  · intro q l hq
    rw [hs]
    by_cases he : q = p
    · subst he; exact ⟨k, hk⟩
    · rw [Function.update_of_ne he] at hq; exact h.ok q l hq
  · intro j b hb
    rw [List.getElem?_set] at hb
    by_cases hj : k = j
    · rw [if_pos hj, if_pos (polySlot_lt hk)] at hb; cases hb; exact hn
    · rw [if_neg hj] at hb; exact h.nodup j b hb
  · intro j b hb q l
    rw [hs]
    rw [List.getElem?_set] at hb
    by_cases hj : k = j
    · rw [if_pos hj, if_pos (polySlot_lt hk)] at hb; cases hb; subst hj; exact hm q l
    · rw [if_neg hj] at hb
      rw [h.mem j b hb q l]
      refine and_congr_right fun hq => ?_
      have : q ≠ p := by rintro rfl; rw [hk] at hq; cases hq; exact hj rfl
      rw [Function.update_of_ne this]

theorem addPolygon_spec {m : PolyMap} {f} (h : PRep m f) {p : Pt} (hp : 0 ≤ (53 + p.x) * 53 + p.y) (h0 : f p = none) (l : List FP) :
    ∃ m', addPolygon m p l = some m' ∧ m'.length = m.length ∧ PRep m' (Function.update f p (some l)) := by
  obtain ⟨k, hk⟩ := polySlot_some h.pos hp
  have hb := List.getElem?_eq_getElem (polySlot_lt hk)
  set b := m[k]'(polySlot_lt hk) with hbd
  refine ⟨m.set k (b ++ [(p, l)]), by unfold addPolygon; simp [hk, hb], by simp, ?_⟩
  refine h.set hk _ ?_ ?_
  · rw [List.map_append, List.nodup_append]
    refine ⟨h.nodup k b hb, by simp, ?_⟩
    intro a ha c hc
    simp only [List.map_cons, List.map_nil, List.mem_singleton] at hc
    subst hc
    rintro rfl
    obtain ⟨⟨a, l'⟩, ha', rfl⟩ := List.mem_map.mp ha
    have := ((h.mem k b hb _ _).mp ha').2
    rw [h0] at this; cases this
  · intro q l'
    rw [List.mem_append, h.mem k b hb, List.mem_singleton, Prod.mk.injEq]
    by_cases he : q = p
    · subst he
      rw [Function.update_self, h0]
      simp [hk, eq_comm]
    · rw [Function.update_of_ne he]
      simp [he]

theorem removePolygon_spec {m : PolyMap} {f} (h : PRep m f) {p : Pt} {l : List FP} (h0 : f p = some l) :
    ∃ m', removePolygon m p = some m' ∧ m'.length = m.length ∧ PRep m' (Function.update f p none) := by
  obtain ⟨k, hk⟩ := h.ok p l h0
  have hb := List.getElem?_eq_getElem (polySlot_lt hk)
  set b := m[k]'(polySlot_lt hk) with hbd
  have hin : (p, l) ∈ b := (h.mem k b hb p l).mpr ⟨hk, h0⟩
  cases hf : b.findIdx? (fun e => e.1 == p) with
  | none =>
    have := List.findIdx?_eq_none_iff.mp hf _ hin
    simp at this
  | some i =>
    obtain ⟨l1, e, l2, hb2, hl, hq, _⟩ := findIdx?_split hf
    refine ⟨m.set k (swapRemove b i), by unfold removePolygon; simp [hk, hb, hf], by simp, ?_⟩
    have hperm := swapRemove_split l1 e l2
    rw [← hb2, hl] at hperm
    have hn := h.nodup k b hb
    rw [hb2, List.map_append, List.map_cons] at hn
    have hep : e.1 = p := by simpa using hq
    refine h.set hk _ ?_ ?_
    · rw [(hperm.map _).nodup_iff, List.map_append]
      exact hn.sublist (List.Sublist.append_left (List.sublist_cons_self _ _) _)
    · intro q l'
      rw [hperm.mem_iff]
      have hb3 : (q, l') ∈ b ↔ (q, l') = e ∨ (q, l') ∈ l1 ++ l2 := by rw [hb2]; exact mem_mid _ _ _ _
      rw [List.nodup_append] at hn
      obtain ⟨n1, n2, n3⟩ := hn
      rw [List.nodup_cons] at n2
      constructor
      · intro hm
        have := (h.mem k b hb q l').mp (hb3.mpr (Or.inr hm))
        refine ⟨this.1, ?_⟩
        have hqp : q ≠ p := by
          rintro rfl
          rcases List.mem_append.mp hm with hm | hm
          · exact n3 q (List.mem_map.mpr ⟨_, hm, rfl⟩) q (by simp [hep]) rfl
          · exact n2.1 (by rw [hep]; exact List.mem_map.mpr ⟨_, hm, rfl⟩)
        rw [Function.update_of_ne hqp]; exact this.2
      · rintro ⟨a1, a2⟩
        have hqp : q ≠ p := by rintro rfl; simp at a2
        rw [Function.update_of_ne hqp] at a2
        rcases hb3.mp ((h.mem k b hb q l').mpr ⟨a1, a2⟩) with e' | e'
        · rw [← e'] at hep; exact (hqp hep).elim
        · exact e'

theorem removePolygon_none {m : PolyMap} {f} (h : PRep m f) {p : Pt} (h0 : f p = none) : removePolygon m p = none := by
  unfold removePolygon
  cases hk : polySlot m p with
  | none => rfl
  | some k =>
    have hb := List.getElem?_eq_getElem (polySlot_lt hk)
    set b := m[k]'(polySlot_lt hk)
    have : b.findIdx? (fun e => e.1 == p) = none := by
      rw [List.findIdx?_eq_none_iff]
      rintro ⟨q, l⟩ hm
      have := ((h.mem k b hb q l).mp hm).2
      simp only [beq_eq_false_iff_ne]
      rintro rfl
      rw [h0] at this; cases this
    simp [hb, this]

theorem removeAll_spec : ∀ (us : List Pt) (m : PolyMap) (f), PRep m f → us.Nodup → (∀ u ∈ us, ∃ l, f u = some l) →
    ∃ m', us.foldlM removePolygon m = some m' ∧ m'.length = m.length ∧ PRep m' (fun q => if q ∈ us then none else f q) := by
  intro us
  induction us with
  | nil => intro m f h _ _; exact ⟨m, rfl, rfl, by simpa using h⟩
  | cons u us ih =>
    intro m f h hn hu
    obtain ⟨l, hl⟩ := hu u (by simp)
    obtain ⟨m1, e1, e2, e3⟩ := removePolygon_spec h hl
    rw [List.nodup_cons] at hn
    obtain ⟨m2, d1, d2, d3⟩ := ih m1 _ e3 hn.2 (by
      intro v hv
      have : v ≠ u := by rintro rfl; exact hn.1 hv
      rw [Function.update_of_ne this]
      exact hu v (by simp [hv]))
    refine ⟨m2, by simp [List.foldlM_cons, e1, d1], by omega, ?_⟩
    convert d3 using 2 with q
    by_cases hq : q = u
    · subst hq; simp
    · simp [hq, Function.update_of_ne hq]

end Verif.Vor

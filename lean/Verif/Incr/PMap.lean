import Verif.Incr.Lists

/-!
# The point map refines a count function
-/

namespace Verif.Incr

/-- Coordinates fit in int16. -/
def I16 (p : Pt) : Prop := -32768 ≤ p.x ∧ p.x ≤ 32767 ∧ -32768 ≤ p.y ∧ p.y ≤ 32767

theorem u16_inj {a b : Int} (ha : -32768 ≤ a ∧ a ≤ 32767) (hb : -32768 ≤ b ∧ b ≤ 32767)
    (h : u16 a = u16 b) : a = b := by
  unfold u16 at h
  omega

/-- The entry stored for `p` with count `n`. -/
def ent (p : Pt) (n : Nat) : Entry := ⟨u16 p.x, u16 p.y, n⟩

def ekey (e : Entry) : Nat × Nat := (e.x, e.y)

theorem isAt_iff (e : Entry) (p : Pt) : e.isAt p = true ↔ ekey e = (u16 p.x, u16 p.y) := by
  simp only [Entry.isAt, ekey, Bool.and_eq_true, beq_iff_eq, Prod.mk.injEq]
  exact ⟨fun h => ⟨h.1.symm, h.2.symm⟩, fun h => ⟨h.1.symm, h.2.symm⟩⟩

theorem mem_mid {α} (x e : α) (l1 l2 : List α) : x ∈ l1 ++ e :: l2 ↔ x = e ∨ x ∈ l1 ++ l2 := by
  simp only [List.mem_append, List.mem_cons]; tauto

theorem ent_inj {p q : Pt} (hp : I16 p) (hq : I16 q) (h : (u16 p.x, u16 p.y) = (u16 q.x, u16 q.y)) :
    p = q := by
  have h1 := congrArg Prod.fst h
  have h2 := congrArg Prod.snd h
  obtain ⟨a1, a2, a3, a4⟩ := hp
  obtain ⟨b1, b2, b3, b4⟩ := hq
  exact Pt.ext (u16_inj ⟨a1, a2⟩ ⟨b1, b2⟩ h1) (u16_inj ⟨a3, a4⟩ ⟨b3, b4⟩ h2)

/-- A bucket holds exactly the entries of the count function. -/
def BRep (b : List Entry) (S : Pt → Nat) : Prop :=
  (b.map ekey).Nodup ∧ ∀ e, e ∈ b ↔ ∃ p, I16 p ∧ 0 < S p ∧ e = ent p (S p)

theorem mem_split_key {l1 l2 : List Entry} {e : Entry} (h : ((l1 ++ e :: l2).map ekey).Nodup)
    (x : Entry) : x ∈ l1 ++ l2 ↔ x ∈ l1 ++ e :: l2 ∧ ekey x ≠ ekey e := by
  rw [List.map_append, List.map_cons, List.nodup_append, List.nodup_cons] at h
  obtain ⟨_, ⟨h2, _⟩, h4⟩ := h
  constructor
  · intro hx
    rcases List.mem_append.mp hx with hx | hx
    · exact ⟨List.mem_append_left _ hx, h4 _ (List.mem_map_of_mem hx) _ (by simp)⟩
    · refine ⟨List.mem_append_right _ (by simp [hx]), ?_⟩
      intro hk
      exact h2 (hk ▸ List.mem_map_of_mem hx)
  · rintro ⟨hx, hk⟩
    rcases List.mem_append.mp hx with hx | hx
    · exact List.mem_append_left _ hx
    · rcases List.mem_cons.mp hx with rfl | hx
      · exact (hk rfl).elim
      · exact List.mem_append_right _ hx

theorem BRep.find {b : List Entry} {S : Pt → Nat} (h : BRep b S) {p : Pt} (hp : I16 p) :
    (0 < S p ∧ ∃ l1 l2, b = l1 ++ ent p (S p) :: l2 ∧ b.findIdx? (·.isAt p) = some l1.length) ∨
    (S p = 0 ∧ b.findIdx? (·.isAt p) = none) := by
  cases hf : b.findIdx? (·.isAt p) with
  | none =>
    right
    refine ⟨?_, rfl⟩
    by_contra hne
    have hm : ent p (S p) ∈ b := (h.2 _).mpr ⟨p, hp, Nat.pos_of_ne_zero hne, rfl⟩
    have := List.findIdx?_eq_none_iff.mp hf _ hm
    simp [Entry.isAt, ent] at this
  | some i =>
    left
    obtain ⟨l1, e, l2, hb, hl, hq, _⟩ := findIdx?_split hf
    obtain ⟨q, hq1, hq2, rfl⟩ := (h.2 e).mp (by rw [hb]; simp)
    have : q = p := ent_inj hq1 hp ((isAt_iff _ _).mp hq)
    subst this
    exact ⟨hq2, l1, l2, hb, by rw [hl]⟩

theorem bucketAdd_spec {b : List Entry} {S : Pt → Nat} (h : BRep b S) {p : Pt} (hp : I16 p)
    (hc : S p + 1 < 65536) :
    (bucketAdd b p).2 = S p + 1 ∧
    BRep (bucketAdd b p).1 (Function.update S p (S p + 1)) ∧
    ((bucketAdd b p).1.map (·.count)).sum = (b.map (·.count)).sum + 1 := by
  unfold bucketAdd
  rcases h.find hp with ⟨hpos, l1, l2, hb, hf⟩ | ⟨h0, hf⟩
  · have hg : b[l1.length]? = some (ent p (S p)) := by rw [hb]; simp
    have hm : (S p + 1) % 65536 = S p + 1 := Nat.mod_eq_of_lt hc
    have hset : b.set l1.length (ent p (S p + 1)) = l1 ++ ent p (S p + 1) :: l2 := by
      rw [hb, List.set_append_right _ _ (le_refl _)]; simp
    have hk := h.1
    rw [hb] at hk
    rw [hf]
    simp only [hg]
    have he : ({ ent p (S p) with count := ((ent p (S p)).count + 1) % 65536 } : Entry) = ent p (S p + 1) := by
      simp [ent, hm]
    rw [he, hset]
    refine ⟨by simp [ent, hm], ⟨?_, ?_⟩, ?_⟩
    · simpa [ekey, ent] using hk
    · intro x
      have hms := mem_split_key hk x
      rw [mem_mid, hms, ← hb, h.2]
      constructor
      · rintro (rfl | ⟨⟨q, hq, hq2, rfl⟩, hne⟩)
        · exact ⟨p, hp, by simp, by simp⟩
        · have hqp : q ≠ p := by rintro rfl; exact hne rfl
          exact ⟨q, hq, by simpa [Function.update_of_ne hqp] using hq2, by rw [Function.update_of_ne hqp]⟩
      · rintro ⟨q, hq, hq2, rfl⟩
        by_cases hqp : q = p
        · subst hqp; left; simp
        · right
          rw [Function.update_of_ne hqp] at hq2 ⊢
          refine ⟨⟨q, hq, hq2, rfl⟩, ?_⟩
          intro hk'
          exact hqp (ent_inj hq hp hk')
    · rw [hb]; simp [ent]; omega
  · rw [hf]
    simp only
    have hne : ∀ e ∈ b, ekey e ≠ (u16 p.x, u16 p.y) := by
      intro e he hk
      have := List.findIdx?_eq_none_iff.mp hf e he
      rw [(isAt_iff e p).mpr hk] at this
      cases this
    refine ⟨by rw [h0], ⟨?_, ?_⟩, by simp⟩
    · rw [List.map_append, List.nodup_append]
      refine ⟨h.1, by simp, ?_⟩
      intro a ha b' hb' hab
      obtain ⟨e, he, rfl⟩ := List.mem_map.mp ha
      simp at hb'
      exact hne e he (by rw [hab, hb']; rfl)
    · intro x
      rw [List.mem_append, h.2]
      constructor
      · rintro (⟨q, hq, hq2, rfl⟩ | hx)
        · have hqp : q ≠ p := by rintro rfl; omega
          exact ⟨q, hq, by simpa [Function.update_of_ne hqp] using hq2, by rw [Function.update_of_ne hqp]⟩
        · simp at hx
          exact ⟨p, hp, by simp, by simp [hx, ent, h0]⟩
      · rintro ⟨q, hq, hq2, rfl⟩
        by_cases hqp : q = p
        · subst hqp; right; simp [ent, h0]
        · left
          rw [Function.update_of_ne hqp] at hq2 ⊢
          exact ⟨q, hq, hq2, rfl⟩

theorem bucketRemove_none {b : List Entry} {S : Pt → Nat} (h : BRep b S) {p : Pt} (hp : I16 p)
    (h0 : S p = 0) : bucketRemove b p = none := by
  unfold bucketRemove
  rcases h.find hp with ⟨hpos, _⟩ | ⟨_, hf⟩
  · omega
  · rw [hf]

theorem bucketRemove_spec {b : List Entry} {S : Pt → Nat} (h : BRep b S) {p : Pt} (hp : I16 p)
    (h0 : 0 < S p) (hc : S p < 65536) :
    ∃ b', bucketRemove b p = some (b', S p - 1) ∧ BRep b' (Function.update S p (S p - 1)) ∧
      (b'.map (·.count)).sum + 1 = (b.map (·.count)).sum := by
  unfold bucketRemove
  rcases h.find hp with ⟨hpos, l1, l2, hb, hf⟩ | ⟨h0', hf⟩
  · have hg : b[l1.length]? = some (ent p (S p)) := by rw [hb]; simp
    have hm : (S p + 65535) % 65536 = S p - 1 := by omega
    have hk := h.1
    rw [hb] at hk
    have rest : ∀ x, x ∈ l1 ++ l2 ↔ ∃ q, I16 q ∧ q ≠ p ∧ 0 < S q ∧ x = ent q (S q) := by
      intro x
      rw [mem_split_key hk x, ← hb, h.2]
      constructor
      · rintro ⟨⟨q, hq, hq2, rfl⟩, hne⟩
        exact ⟨q, hq, by rintro rfl; exact hne rfl, hq2, rfl⟩
      · rintro ⟨q, hq, hqp, hq2, rfl⟩
        exact ⟨⟨q, hq, hq2, rfl⟩, fun hk' => hqp (ent_inj hq hp hk')⟩
    rw [hf]
    simp only [hg]
    by_cases hone : S p - 1 = 0
    · have hcnt : ((ent p (S p)).count + 65535) % 65536 = 0 := by simp only [ent]; omega
      rw [hcnt, hone]
      simp only [ne_eq, not_true_eq_false, if_false]
      have hperm := swapRemove_split l1 (ent p (S p)) l2
      rw [← hb] at hperm
      refine ⟨_, rfl, ⟨?_, ?_⟩, ?_⟩
      · rw [(hperm.map ekey).nodup_iff]
        refine List.Nodup.sublist ?_ hk
        rw [List.map_append, List.map_append, List.map_cons]
        exact List.Sublist.append_left (List.sublist_cons_self _ _) _
      · intro x
        rw [hperm.mem_iff, rest]
        constructor
        · rintro ⟨q, hq, hqp, hq2, rfl⟩
          exact ⟨q, hq, by simpa [Function.update_of_ne hqp] using hq2, by rw [Function.update_of_ne hqp]⟩
        · rintro ⟨q, hq, hq2, rfl⟩
          by_cases hqp : q = p
          · subst hqp; simp at hq2
          · rw [Function.update_of_ne hqp] at hq2 ⊢
            exact ⟨q, hq, hqp, hq2, rfl⟩
      · rw [(hperm.map _).sum_nat, hb]; simp [ent]; omega
    · have hcnt : ((ent p (S p)).count + 65535) % 65536 = S p - 1 := by simp only [ent]; omega
      rw [hcnt]
      simp only [ne_eq, hone, not_false_eq_true, if_true]
      have hset : b.set l1.length { ent p (S p) with count := S p - 1 } = l1 ++ ent p (S p - 1) :: l2 := by
        rw [hb, List.set_append_right _ _ (le_refl _)]; simp [ent]
      rw [hset]
      refine ⟨_, rfl, ⟨?_, ?_⟩, ?_⟩
      · simpa [ekey, ent] using hk
      · intro x
        rw [mem_mid, rest]
        constructor
        · rintro (rfl | ⟨q, hq, hqp, hq2, rfl⟩)
          · exact ⟨p, hp, by simp; omega, by simp⟩
          · exact ⟨q, hq, by simpa [Function.update_of_ne hqp] using hq2, by rw [Function.update_of_ne hqp]⟩
        · rintro ⟨q, hq, hq2, rfl⟩
          by_cases hqp : q = p
          · subst hqp; left; simp
          · right
            rw [Function.update_of_ne hqp] at hq2 ⊢
            exact ⟨q, hq, hqp, hq2, rfl⟩
      · rw [hb]; simp [ent]; omega
  · omega

/-- The slot depends on the table size only. -/
theorem slotOf_len {pm pm' : PMap} (h : pm.length = pm'.length) (p : Pt) : slotOf pm p = slotOf pm' p := by
  unfold slotOf; rw [h]

theorem slotOf_lt {pm : PMap} {p : Pt} {k : Nat} (h : slotOf pm p = some k) : k < pm.length := by
  unfold slotOf at h
  by_cases h0 : pm.length = 0
  · rw [if_pos h0] at h; cases h
  · rw [if_neg h0] at h
    simp only at h
    split at h
    · cases h
    · cases h
      have h1 : Int.tmod ((53 + p.x) * 53 + p.y) pm.length < pm.length :=
        Int.tmod_lt_of_pos _ (by exact_mod_cast Nat.pos_of_ne_zero h0)
      rename_i hneg
      simp only [not_lt] at hneg
      exact (Int.toNat_lt hneg).mpr h1

/-- A point the map can hold: int16 coordinates and a non-negative hash. -/
def Hashable (p : Pt) : Prop := I16 p ∧ 0 ≤ (53 + p.x) * 53 + p.y

theorem slotOf_some {pm : PMap} (hl : 0 < pm.length) {p : Pt} (hp : Hashable p) :
    ∃ k, slotOf pm p = some k := by
  unfold slotOf
  rw [if_neg (by omega)]
  simp only
  have := Int.tmod_nonneg (pm.length : Int) hp.2
  rw [if_neg (by omega)]
  exact ⟨_, rfl⟩

/-- The map holds exactly the counts `c`. -/
structure PMRep (pm : PMap) (c : Pt → Nat) : Prop where
  pos : 0 < pm.length
  ok : ∀ p, 0 < c p → Hashable p
  bnd : ∀ p, c p < 65536
  rep : ∀ k b, pm[k]? = some b → BRep b (fun p => if slotOf pm p = some k then c p else 0)

theorem PMRep.new {n : Nat} (hn : 0 < n) : PMRep (newPointMap n) (fun _ => 0) := by
  refine ⟨by simpa [newPointMap] using hn, by simp, by simp, ?_⟩
  intro k b hb
  unfold newPointMap at hb
  rw [List.getElem?_replicate] at hb
  split at hb
  · cases hb
    refine ⟨by simp, ?_⟩
    intro e
    simp
  · cases hb

theorem update_slot {pm : PMap} {c : Pt → Nat} {p : Pt} {k : Nat} (hk : slotOf pm p = some k) (n : Nat) :
    Function.update (fun q => if slotOf pm q = some k then c q else 0) p n =
      fun q => if slotOf pm q = some k then Function.update c p n q else 0 := by
  funext q
  by_cases hq : q = p
  · subst hq; simp [hk]
  · simp [Function.update_of_ne hq]

theorem other_slot {pm : PMap} {c : Pt → Nat} {p : Pt} {k k' : Nat} (hk : slotOf pm p = some k)
    (hne : k' ≠ k) (n : Nat) :
    (fun q => if slotOf pm q = some k' then Function.update c p n q else 0) =
      fun q => if slotOf pm q = some k' then c q else 0 := by
  funext q
  by_cases hq : q = p
  · subst hq
    rw [hk]
    simp [Ne.symm hne]
  · simp [Function.update_of_ne hq]

theorem PMRep.set {pm : PMap} {c : Pt → Nat} (h : PMRep pm c) {p : Pt} {k n : Nat} {b' : List Entry}
    (hp : Hashable p) (hk : slotOf pm p = some k) (hn : n < 65536)
    (hb' : BRep b' (Function.update (fun q => if slotOf pm q = some k then c q else 0) p n)) :
    PMRep (pm.set k b') (Function.update c p n) := by
  have hs : ∀ q, slotOf (pm.set k b') q = slotOf pm q := fun q => slotOf_len (by simp) q
  refine ⟨by simpa using h.pos, ?_, ?_, ?_⟩
  · intro q hq
    by_cases hqp : q = p
    · subst hqp; exact hp
    · rw [Function.update_of_ne hqp] at hq; exact h.ok q hq
  · intro q
    by_cases hqp : q = p
    · subst hqp; simpa using hn
    · rw [Function.update_of_ne hqp]; exact h.bnd q
  · intro k' b hb
    simp only [hs]
    rw [List.getElem?_set] at hb
    by_cases hkk : k = k'
    · subst hkk
      rw [if_pos rfl, if_pos (slotOf_lt hk)] at hb
      cases hb
      rw [← update_slot hk]; exact hb'
    · rw [if_neg hkk] at hb
      rw [other_slot hk (Ne.symm hkk)]
      exact h.rep k' b hb

theorem pmNumPoints_set {pm : PMap} {k : Nat} {b b' : List Entry} (hk : pm[k]? = some b) :
    (pmNumPoints (pm.set k b') : Int) =
      pmNumPoints pm - (b.map (·.count)).sum + (b'.map (·.count)).sum := by
  obtain ⟨hi, he⟩ := List.getElem?_eq_some_iff.mp hk
  have hsp : pm = pm.take k ++ b :: pm.drop (k + 1) := by
    rw [← he, List.cons_getElem_drop_succ, List.take_append_drop]
  have hl : (pm.take k).length = k := by simp; omega
  have hset : pm.set k b' = pm.take k ++ b' :: pm.drop (k + 1) := by
    conv_lhs => rw [hsp]
    rw [List.set_append_right _ _ (by omega)]
    simp [hl]
  unfold pmNumPoints
  rw [hset]
  conv_rhs => rw [hsp]
  simp
  omega

theorem pmAdd_spec {pm : PMap} {c : Pt → Nat} (h : PMRep pm c) {p : Pt} (hp : Hashable p)
    (hc : c p + 1 < 65536) :
    ∃ pm', pmAdd pm p = some (pm', c p + 1) ∧ PMRep pm' (Function.update c p (c p + 1)) ∧
      pmNumPoints pm' = pmNumPoints pm + 1 ∧ pm'.length = pm.length := by
  obtain ⟨k, hk⟩ := slotOf_some h.pos hp
  have hlt := slotOf_lt hk
  have hb : pm[k]? = some pm[k] := List.getElem?_eq_getElem hlt
  obtain ⟨h1, h2, h3⟩ := bucketAdd_spec (h.rep k _ hb) hp.1 (by simpa [hk] using hc)
  simp only [hk, if_true] at h1 h2
  refine ⟨pm.set k (bucketAdd pm[k] p).1, ?_, h.set hp hk hc h2, ?_, by simp⟩
  · unfold pmAdd; simp [hk, hb, h1]
  · have := pmNumPoints_set (b' := (bucketAdd pm[k] p).1) hb
    omega

theorem pmRemove_spec {pm : PMap} {c : Pt → Nat} (h : PMRep pm c) {p : Pt} (hc : 0 < c p) :
    ∃ pm', pmRemove pm p = some (pm', c p - 1) ∧ PMRep pm' (Function.update c p (c p - 1)) ∧
      pmNumPoints pm' + 1 = pmNumPoints pm ∧ pm'.length = pm.length := by
  have hp := h.ok p hc
  obtain ⟨k, hk⟩ := slotOf_some h.pos hp
  have hlt := slotOf_lt hk
  have hb : pm[k]? = some pm[k] := List.getElem?_eq_getElem hlt
  obtain ⟨b', h1, h2, h3⟩ := bucketRemove_spec (h.rep k _ hb) hp.1 (by simpa [hk] using hc)
    (by simpa [hk] using h.bnd p)
  simp only [hk, if_true] at h1 h2
  refine ⟨pm.set k b', ?_, h.set hp hk (by have := h.bnd p; omega) h2, ?_, by simp⟩
  · unfold pmRemove; simp [hk, hb, h1]
  · have := pmNumPoints_set (b' := b') hb
    omega

theorem pmRemove_none {pm : PMap} {c : Pt → Nat} (h : PMRep pm c) {p : Pt} (hp : I16 p) (hc : c p = 0) :
    pmRemove pm p = none := by
  unfold pmRemove
  cases hk : slotOf pm p with
  | none => rfl
  | some k =>
    have hlt := slotOf_lt hk
    have hb : pm[k]? = some pm[k] := List.getElem?_eq_getElem hlt
    have := bucketRemove_none (h.rep k _ hb) hp (by simp [hc])
    simp [hb, this]

theorem pmCopies_spec {pm : PMap} {c : Pt → Nat} (h : PMRep pm c) {p : Pt} (hp : Hashable p) :
    pmCopies pm p = some (c p) := by
  obtain ⟨k, hk⟩ := slotOf_some h.pos hp
  have hlt := slotOf_lt hk
  have hb : pm[k]? = some pm[k] := List.getElem?_eq_getElem hlt
  have hr := h.rep k _ hb
  unfold pmCopies
  simp only [hk, hb, Option.bind_eq_bind, Option.bind_some]
  cases hf : pm[k].find? (·.isAt p) with
  | none =>
    by_contra hne
    have h0 : c p ≠ 0 := fun h0 => hne (by simp [h0])
    have hm : ent p (c p) ∈ pm[k] := (hr.2 _).mpr ⟨p, hp.1, by simp [hk]; omega, by simp [hk]⟩
    have := List.find?_eq_none.mp hf _ hm
    simp [Entry.isAt, ent] at this
  | some e =>
    obtain ⟨q, hq, hq2, rfl⟩ := (hr.2 e).mp (List.mem_of_find?_eq_some hf)
    have hat := List.find?_some hf
    have : q = p := ent_inj hq hp.1 ((isAt_iff _ _).mp hat)
    subst this
    simp [ent, hk]

end Verif.Incr

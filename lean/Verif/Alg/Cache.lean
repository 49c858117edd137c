import Verif.Alg.Model

/-!
# Cache entries: validity and index ranges
-/

namespace Verif.Alg

open Verif.Fit

variable {Dt K : Type} {F : Fun Dt K}

/-- `Equals` on two pieces of the domain `ok` implies equal values. -/
def SameOK (F : Fun Dt K) (ok : K → Prop) : Prop := ∀ a b, ok a → ok b → F.same a b = true → F.val a = F.val b

/-- An entry holds the uncached value of its piece. -/
def Valid (F : Fun Dt K) (ok : K → Prop) (e : Entry K) : Prop := ok e.key ∧ F.val e.key = some e.fit

/-- The pieces with their uncached values. -/
def vals (F : Fun Dt K) (ks : List K) : Option (List (K × ℚ)) := ks.mapM fun k => (F.val k).map (Prod.mk k)

/-- The fitness without a cache. -/
def plain (F : Fun Dt K) (d : Dt) : Option ℚ := (vals F (F.keys d)).map F.fin

theorem vals_cons (k : K) (ks : List K) : vals F (k :: ks) = (F.val k).bind fun v => (vals F ks).map fun l => (k, v) :: l := by
  unfold vals
  rw [List.mapM_cons]
  cases F.val k with
  | none => rfl
  | some v =>
    simp only [Option.map_some, Option.bind_eq_bind, Option.bind_some]
    cases List.mapM (fun k => Option.map (Prod.mk k) (F.val k)) ks <;> rfl

theorem indexOf_lt {h len : Nat} (h1 : 1 ≤ len) (h2 : len ≤ 2 ^ 64) : indexOf h len < len := by
  unfold indexOf
  have e : (len + 2 ^ 64 - 1) % 2 ^ 64 = len - 1 := by
    have : len + 2 ^ 64 - 1 = (len - 1) + 2 ^ 64 := by omega
    rw [this, Nat.add_mod_right, Nat.mod_eq_of_lt (by omega)]
  rw [e]
  have a : (h % 2 ^ 64) &&& (len - 1) ≤ len - 1 := Nat.and_le_right
  have b := Nat.mod_le ((h % 2 ^ 64) &&& (len - 1)) (2 ^ 32)
  omega

theorem indexOf_lt_pow (h k : Nat) : indexOf h (2 ^ k) < 2 ^ k := by
  by_cases hk : k ≤ 64
  · exact indexOf_lt Nat.one_le_two_pow (Nat.pow_le_pow_right (by norm_num) hk)
  · have : indexOf h (2 ^ k) < 2 ^ 32 := Nat.mod_lt _ (by norm_num)
    exact this.trans (Nat.pow_lt_pow_right (by norm_num) (by omega))

/-- The entries a slice can give are valid. -/
structure ReadOK (F : Fun Dt K) (ok : K → Prop) (bufs : Bool → Nat → Option (Entry K)) (old out : List (Entry K)) (r : Ref) : Prop where
  buf : ∀ b, r = .shared b → ∀ x e, bufs b x = some e → Valid F ok e
  old : r = .own → ∀ e ∈ old, Valid F ok e
  out : ∀ e ∈ out, Valid F ok e

theorem readRef_valid {ok : K → Prop} {bufs : Bool → Nat → Option (Entry K)} {k : Nat} {old out : List (Entry K)} {r : Ref}
    (h : ReadOK F ok bufs old out r) {i : Nat} {e : Entry K} (he : readRef bufs k old out r i = some (some e)) : Valid F ok e := by
  unfold readRef at he
  split at he
  · rw [Option.some.injEq] at he
    cases r with
    | fresh => cases he
    | own =>
      simp only at he
      split at he
      · exact h.out e (List.mem_of_getElem? he)
      · exact h.old rfl e (List.mem_of_getElem? he)
    | shared b => exact h.buf b rfl i e he
  · cases he

/-- One piece gives its uncached value and a valid entry. -/
theorem keyStep_valid {ok : K → Prop} (S : SameOK F ok) {bufs : Bool → Nat → Option (Entry K)} {k : Nat} {old out : List (Entry K)} {r : Ref}
    (h : ReadOK F ok bufs old out r) {key : K} (hk : ok key) {x : ℚ × Entry K} (hx : keyStep F bufs k old out r key = some x) :
    F.val key = some x.1 ∧ Valid F ok x.2 := by
  unfold keyStep at hx
  simp only [Option.bind_eq_bind] at hx
  rw [Option.bind_eq_some_iff] at hx
  obtain ⟨c, hc, hx⟩ := hx
  cases c with
  | none =>
    simp only [Option.filter_none] at hx
    rw [Option.bind_eq_some_iff] at hx
    obtain ⟨v, hv, hx⟩ := hx
    cases hx
    exact ⟨hv, hk, hv⟩
  | some e =>
    have he := readRef_valid h hc
    by_cases hs : F.same e.key key = true
    · simp only [Option.filter_some, hs, if_true] at hx
      cases hx
      exact ⟨(S _ _ he.1 hk hs) ▸ he.2, he⟩
    · simp only [Option.filter_some, hs] at hx
      simp only [Bool.false_eq_true, if_false] at hx
      rw [Option.bind_eq_some_iff] at hx
      obtain ⟨v, hv, hx⟩ := hx
      cases hx
      exact ⟨hv, hk, hv⟩

/-- One piece succeeds when its index is in range and its value is defined. -/
theorem keyStep_some {bufs : Bool → Nat → Option (Entry K)} {k : Nat} {old out : List (Entry K)} {r : Ref} {key : K} {v : ℚ}
    (hi : indexOf (F.hash key) (refLen k old r) < refLen k old r) (hv : F.val key = some v) :
    ∃ x, keyStep F bufs k old out r key = some x := by
  unfold keyStep readRef
  simp only [hi, if_true, Option.bind_eq_bind, Option.bind_some]
  split
  · exact ⟨_, rfl⟩
  · exact ⟨_, by rw [hv]; rfl⟩

theorem ReadOK.snoc {ok : K → Prop} {bufs : Bool → Nat → Option (Entry K)} {old out : List (Entry K)} {r : Ref}
    (h : ReadOK F ok bufs old out r) {e : Entry K} (he : Valid F ok e) : ReadOK F ok bufs old (out ++ [e]) r :=
  ⟨h.buf, h.old, by
    intro e' he'
    rcases List.mem_append.mp he' with h' | h'
    · exact h.out e' h'
    · simp only [List.mem_singleton] at h'; exact h' ▸ he⟩

/-- The loop gives uncached values and valid entries. -/
theorem keyLoop_valid {ok : K → Prop} (S : SameOK F ok) {bufs : Bool → Nat → Option (Entry K)} {k : Nat} {old : List (Entry K)} {r : Ref} :
    ∀ (ks : List K) (out : List (Entry K)) (acc : List (K × ℚ)), ReadOK F ok bufs old out r → (∀ key ∈ ks, ok key) →
    ∀ x, keyLoop F bufs k old r ks out acc = some x → (∃ l, vals F ks = some l ∧ x.2 = acc ++ l) ∧ ∀ e ∈ x.1, Valid F ok e := by
  intro ks
  induction ks with
  | nil =>
    intro out acc h _ x hx
    cases hx
    exact ⟨⟨[], rfl, by simp⟩, h.out⟩
  | cons key ks ih =>
    intro out acc h hk x hx
    unfold keyLoop at hx
    simp only [Option.bind_eq_bind] at hx
    rw [Option.bind_eq_some_iff] at hx
    obtain ⟨y, hy, hx⟩ := hx
    obtain ⟨h1, h2⟩ := keyStep_valid S h (hk key (by simp)) hy
    obtain ⟨⟨l, hl, e1⟩, e2⟩ := ih _ _ (h.snoc h2) (fun k' h' => hk k' (by simp [h'])) x hx
    refine ⟨⟨(key, y.1) :: l, ?_, by rw [e1]; simp⟩, e2⟩
    rw [vals_cons, h1]
    simp [hl]

theorem keyLoop_some {bufs : Bool → Nat → Option (Entry K)} {k : Nat} {old : List (Entry K)} {r : Ref}
    (hi : ∀ h, indexOf h (refLen k old r) < refLen k old r) : ∀ (ks : List K) (out : List (Entry K)) (acc : List (K × ℚ)),
    (∀ key ∈ ks, ∃ v, F.val key = some v) → ∃ x, keyLoop F bufs k old r ks out acc = some x := by
  intro ks
  induction ks with
  | nil => intro out acc _; exact ⟨_, rfl⟩
  | cons key ks ih =>
    intro out acc hk
    obtain ⟨v, hv⟩ := hk key (by simp)
    obtain ⟨y, hy⟩ := keyStep_some (bufs := bufs) (out := out) (hi (F.hash key)) hv
    obtain ⟨x, hx⟩ := ih (out ++ [y.2]) (acc ++ [(key, y.1)]) (fun k' h' => hk k' (by simp [h']))
    refine ⟨x, ?_⟩
    unfold keyLoop
    rw [hy]
    exact hx

/-- `vals` is defined when every value is. -/
theorem vals_some : ∀ {ks : List K}, (∀ key ∈ ks, ∃ v, F.val key = some v) → ∃ l, vals F ks = some l := by
  intro ks
  induction ks with
  | nil => intro _; exact ⟨[], rfl⟩
  | cons key ks ih =>
    intro h
    obtain ⟨v, hv⟩ := h key (by simp)
    obtain ⟨l, hl⟩ := ih (fun k' h' => h k' (by simp [h']))
    exact ⟨_, by rw [vals_cons, hv]; simp [hl]; rfl⟩

theorem vals_append : ∀ (ks ks' : List K) {l l' : List (K × ℚ)}, vals F ks = some l → vals F ks' = some l' → vals F (ks ++ ks') = some (l ++ l') := by
  intro ks
  induction ks with
  | nil =>
    intro ks' l l' h h'
    cases h
    exact h'
  | cons key ks ih =>
    intro ks' l l' h h'
    rw [List.cons_append, vals_cons]
    rw [vals_cons] at h
    cases hv : F.val key with
    | none => rw [hv] at h; cases h
    | some v =>
      rw [hv] at h
      simp only [Option.bind_some] at h ⊢
      cases hl : vals F ks with
      | none => rw [hl] at h; cases h
      | some l1 =>
        rw [hl] at h
        simp only [Option.map_some, Option.some.injEq] at h
        rw [ih ks' hl h', ← h]
        rfl

/-! ### Storing entries -/

/-- Storing valid entries in range succeeds and keeps the array valid. -/
theorem putAll {k : Nat} {P : Entry K → Prop} : ∀ (l : List (Entry K)) (buf : Nat → Option (Entry K)), (∀ e ∈ l, e.hash < 2 ^ k ∧ P e) →
    (∀ x e, buf x = some e → P e) → ∃ buf', (l.map some).foldlM (putEntry k) buf = some buf' ∧ ∀ x e, buf' x = some e → P e := by
  intro l
  induction l with
  | nil => intro buf _ h; exact ⟨buf, rfl, h⟩
  | cons e l ih =>
    intro buf hl hb
    obtain ⟨h1, h2⟩ := hl e (by simp)
    have : putEntry k buf (some e) = some (fun x => if x = e.hash then some e else buf x) := by simp [putEntry, h1]
    rw [List.map_cons, List.foldlM_cons, this]
    refine ih _ (fun e' h' => hl e' (by simp [h'])) ?_
    intro x e' he'
    split at he'
    · cases he'; exact h2
    · exact hb x e' he'

/-- Whatever is stored was in the list or in the array. -/
theorem put_valid {k : Nat} {P : Entry K → Prop} : ∀ (l : List (Option (Entry K))) (buf buf' : Nat → Option (Entry K)), (∀ e, some e ∈ l → P e) →
    (∀ x e, buf x = some e → P e) → l.foldlM (putEntry k) buf = some buf' → ∀ x e, buf' x = some e → P e := by
  intro l
  induction l with
  | nil => intro buf buf' _ hb h; cases h; exact hb
  | cons o l ih =>
    intro buf buf' hl hb h
    rw [List.foldlM_cons] at h
    simp only [Option.bind_eq_bind] at h
    rw [Option.bind_eq_some_iff] at h
    obtain ⟨b1, h1, h⟩ := h
    refine ih b1 buf' (fun e he => hl e (by simp [he])) ?_ h
    cases o with
    | none => cases h1
    | some e =>
      simp only [putEntry, Option.bind_eq_bind, Option.bind_some] at h1
      split at h1
      · cases h1
        intro x e' he'
        simp only at he'
        split at he'
        · cases he'; exact hl e (by simp)
        · exact hb x e' he'
      · cases h1

end Verif.Alg

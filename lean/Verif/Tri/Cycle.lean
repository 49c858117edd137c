import Mathlib.Data.List.Rotate
import Mathlib.Data.List.Nodup

/-!
# Cyclic lists as lists of consecutive pairs
-/

namespace Verif.Tri

variable {α : Type*}

/-- Consecutive pairs of the path `x, l`. -/
def path (x : α) : List α → List (α × α)
  | [] => []
  | y :: l => (x, y) :: path y l

/-- Consecutive pairs of a cyclic list. -/
def cyc : List α → List (α × α)
  | [] => []
  | a :: l => path a (l ++ [a])

theorem path_append (x : α) (l m : List α) (y : α) :
    path x (l ++ y :: m) = path x (l ++ [y]) ++ path y m := by
  induction l generalizing x with
  | nil => simp [path]
  | cons z l ih => simp [path, ih]

theorem cyc_rotate_one (a : α) (l : List α) : (cyc (l ++ [a])).Perm (cyc (a :: l)) := by
  cases l with
  | nil => exact List.Perm.refl _
  | cons b l =>
    change (path b ((l ++ [a]) ++ [b])).Perm (path a (b :: l ++ [a]))
    rw [List.append_assoc, List.singleton_append, path_append]
    simp only [path, List.cons_append]
    exact List.perm_append_comm

theorem cyc_isRotated {l m : List α} (h : l ~r m) : (cyc l).Perm (cyc m) := by
  obtain ⟨n, rfl⟩ := h
  induction n generalizing l with
  | zero => simp
  | succ n ih =>
    cases l with
    | nil => simp
    | cons a l =>
      rw [List.rotate_cons_succ]
      exact (cyc_rotate_one a l).symm.trans ih

theorem path_mem {x : α} {l : List α} {u v : α} (h : (u, v) ∈ path x l) : (u = x ∨ u ∈ l) ∧ v ∈ l := by
  induction l generalizing x with
  | nil => simp [path] at h
  | cons y l ih =>
    simp only [path, List.mem_cons, Prod.mk.injEq] at h
    rcases h with ⟨rfl, rfl⟩ | h
    · simp
    · obtain ⟨h1, h2⟩ := ih h
      simp only [List.mem_cons]
      tauto

theorem cyc_mem {l : List α} {u v : α} (h : (u, v) ∈ cyc l) : u ∈ l ∧ v ∈ l := by
  cases l with
  | nil => simp [cyc] at h
  | cons a l =>
    have := path_mem h
    simp only [List.mem_append, List.mem_cons, List.not_mem_nil, or_false] at *
    tauto

theorem path_fst (x : α) (l : List α) : (path x l).map Prod.snd = l := by
  induction l generalizing x with
  | nil => rfl
  | cons y l ih => simp [path, ih]

theorem path_snd (x : α) (l : List α) (y : α) : (path x (l ++ [y])).map Prod.fst = x :: l := by
  induction l generalizing x with
  | nil => rfl
  | cons z l ih => simp [path, ih]

theorem cyc_map_fst (l : List α) : (cyc l).map Prod.fst = l := by
  cases l with
  | nil => rfl
  | cons a l => exact path_snd a l a

theorem cyc_map_snd (l : List α) : ((cyc l).map Prod.snd).Perm l := by
  cases l with
  | nil => exact List.Perm.refl _
  | cons a l =>
    rw [cyc, path_fst]
    exact List.perm_append_comm

theorem cyc_succ {l : List α} {u : α} (h : u ∈ l) : ∃ v, (u, v) ∈ cyc l := by
  rw [← cyc_map_fst l, List.mem_map] at h
  obtain ⟨⟨a, b⟩, h1, rfl⟩ := h
  exact ⟨b, h1⟩

theorem cyc_pred {l : List α} {v : α} (h : v ∈ l) : ∃ u, (u, v) ∈ cyc l := by
  rw [← (cyc_map_snd l).mem_iff, List.mem_map] at h
  obtain ⟨⟨a, b⟩, h1, rfl⟩ := h
  exact ⟨a, h1⟩

theorem cyc_length (l : List α) : (cyc l).length = l.length := by
  conv_rhs => rw [← cyc_map_fst l]
  simp

theorem cyc_succ_unique {l : List α} (hn : l.Nodup) {u v w : α} (h1 : (u, v) ∈ cyc l)
    (h2 : (u, w) ∈ cyc l) : v = w := by
  rw [← cyc_map_fst l] at hn
  have := List.inj_on_of_nodup_map hn h1 h2 rfl
  simpa using this

theorem cyc_pred_unique {l : List α} (hn : l.Nodup) {u v w : α} (h1 : (u, w) ∈ cyc l)
    (h2 : (v, w) ∈ cyc l) : u = v := by
  rw [← (cyc_map_snd l).nodup_iff] at hn
  have := List.inj_on_of_nodup_map hn h1 h2 rfl
  simpa using this

theorem path_propagate {P : α → Prop} {x : α} {l : List α} (h : ∀ u v, (u, v) ∈ path x l → P u → P v)
    (hx : P x) : ∀ z ∈ l, P z := by
  induction l generalizing x with
  | nil => simp
  | cons y l ih =>
    have hy : P y := h x y (by simp [path]) hx
    intro z hz
    rcases List.mem_cons.mp hz with rfl | hz
    · exact hy
    · exact ih (fun u v huv => h u v (by simp [path, huv])) hy z hz

/-- A property passed from each element to its successor holds everywhere. -/
theorem cyc_propagate {P : α → Prop} {l : List α} (h : ∀ u v, (u, v) ∈ cyc l → P u → P v)
    {x : α} (hx : x ∈ l) (hp : P x) : ∀ z ∈ l, P z := by
  obtain ⟨m1, m2, rfl⟩ := List.append_of_mem hx
  have hr : (m1 ++ x :: m2) ~r (x :: (m2 ++ m1)) := by
    have := List.isRotated_append (l := m1) (l' := x :: m2)
    simpa using this
  have hpm := cyc_isRotated hr
  have := path_propagate (P := P) (x := x) (l := (m2 ++ m1) ++ [x])
    (fun u v huv => h u v (hpm.mem_iff.mpr huv)) hp
  intro z hz
  refine this z ?_
  simp only [List.mem_append, List.mem_cons, List.not_mem_nil, or_false] at *
  tauto

theorem cyc_propagate' {P : α → Prop} {l : List α} (h : ∀ u v, (u, v) ∈ cyc l → P v → P u)
    {x : α} (hx : x ∈ l) (hp : P x) : ∀ z ∈ l, P z := by
  intro z hz
  by_contra hn
  exact cyc_propagate (P := fun y => ¬ P y) (fun u v huv hu hv => hu (h u v huv hv)) hz hn x hx hp

theorem path_trans {R : α → α → Prop} {S : α → Prop}
    (tr : ∀ a b c, S a → S b → S c → R a b → R b c → R a c)
    {x : α} {l : List α} (h : ∀ u v, (u, v) ∈ path x l → R u v) (hx : S x) (hS : ∀ z ∈ l, S z) :
    ∀ z ∈ l, R x z := by
  induction l generalizing x with
  | nil => simp
  | cons y l ih =>
    have hxy : R x y := h x y (by simp [path])
    intro z hz
    rcases List.mem_cons.mp hz with rfl | hz
    · exact hxy
    · have hy := hS y List.mem_cons_self
      refine tr x y z hx hy (hS z (List.mem_cons_of_mem _ hz)) hxy ?_
      exact ih (fun u v huv => h u v (by simp [path, huv])) hy
        (fun w hw => hS w (List.mem_cons_of_mem _ hw)) z hz

/-- A relation transitive on the members cannot hold along a cycle unless some member is
related to itself. -/
theorem cyc_irrefl {R : α → α → Prop} {S : α → Prop}
    (tr : ∀ a b c, S a → S b → S c → R a b → R b c → R a c) {l : List α}
    (h : ∀ u v, (u, v) ∈ cyc l → R u v) (hS : ∀ z ∈ l, S z) {x : α} (hx : x ∈ l) : ∃ z, R z z := by
  cases l with
  | nil => simp at hx
  | cons a l =>
    refine ⟨a, path_trans tr (x := a) (l := l ++ [a]) h (hS a List.mem_cons_self) ?_ a (by simp)⟩
    intro z hz
    apply hS
    simp only [List.mem_append, List.mem_cons, List.not_mem_nil, or_false] at *
    tauto

theorem path_fst_mem {x y : α} {l : List α} {u v : α} (h : (u, v) ∈ path x (l ++ [y])) : u ∈ x :: l := by
  rw [← path_snd x l y, List.mem_map]
  exact ⟨(u, v), h, rfl⟩

/-- Transitivity along a path, with a weaker condition on the left end. -/
theorem path_trans' {R : α → α → Prop} {S0 S : α → Prop} (hS0 : ∀ a, S a → S0 a)
    (tr : ∀ a b c, S0 a → S b → S c → R a b → R b c → R a c)
    {x : α} {l : List α} (h : ∀ u v, (u, v) ∈ path x l → R u v) (hx : S0 x) (hS : ∀ z ∈ l, S z) :
    ∀ z ∈ l, R x z := by
  induction l generalizing x with
  | nil => simp
  | cons y l ih =>
    have hxy : R x y := h x y (by simp [path])
    intro z hz
    rcases List.mem_cons.mp hz with rfl | hz
    · exact hxy
    · have hy := hS y List.mem_cons_self
      refine tr x y z hx hy (hS z (List.mem_cons_of_mem _ hz)) hxy ?_
      exact ih (fun u v huv => h u v (by simp [path, huv])) (hS0 y hy)
        (fun w hw => hS w (List.mem_cons_of_mem _ hw)) z hz

theorem path_pairwise {R : α → α → Prop} {S0 S : α → Prop} (hS0 : ∀ a, S a → S0 a)
    (tr : ∀ a b c, S0 a → S b → S c → R a b → R b c → R a c)
    {x : α} {l : List α} (h : ∀ u v, (u, v) ∈ path x l → R u v) (hx : S0 x) (hS : ∀ z ∈ l, S z) :
    (x :: l).Pairwise R := by
  induction l generalizing x with
  | nil => simp
  | cons y l ih =>
    refine List.Pairwise.cons (path_trans' hS0 tr h hx hS) ?_
    exact ih (fun u v huv => h u v (by simp [path, huv])) (hS0 y (hS y List.mem_cons_self))
      (fun w hw => hS w (List.mem_cons_of_mem _ hw))

end Verif.Tri

import Verif.Incr.Model
import Verif.Incr.Geom

/-!
# Specification vocabulary for the triangulation properties

Everything here is elementary plane geometry over the rationals, independent of the functions of
the model (only the data types `Pt`, `Tri` and the history operations are shared).
-/

namespace Verif.Spec

open Verif.Tri (P2)
open Verif.Incr (Pt Tri InImg)

/-- Squared distance of a location and an integer point. -/
def d2 (o : P2) (p : Pt) : ℚ := (o.x - p.x) ^ 2 + (o.y - p.y) ^ 2

/-- `o` is a circumcentre of `t`. -/
def Centre (t : Tri) (o : P2) : Prop := d2 o t.a = d2 o t.b ∧ d2 o t.a = d2 o t.c

/-- `p` lies strictly inside the circumcircle of `t`. -/
def InsideCircle (t : Tri) (p : Pt) : Prop := ∃ o, Centre t o ∧ d2 o p < d2 o t.a

/-- `p` lies in the closed circumscribed disc of `t`. -/
def InDisc (t : Tri) (p : Pt) : Prop := ∃ o, Centre t o ∧ d2 o p ≤ d2 o t.a

/-- Twice the signed area of `a b q`. -/
def area2 (a b : Pt) (q : P2) : ℚ := (b.x - a.x) * (q.y - a.y) - (b.y - a.y) * (q.x - a.x)

/-- Location of an integer point. -/
def loc (p : Pt) : P2 := ⟨p.x, p.y⟩

/-- `t` has three vertices that are not on one line. -/
def NonDegenerate (t : Tri) : Prop := area2 t.a t.b (loc t.c) ≠ 0

/-- `q` is in the open triangle (either orientation of the vertex list). -/
def Interior (t : Tri) (q : P2) : Prop :=
  (0 < area2 t.a t.b q ∧ 0 < area2 t.b t.c q ∧ 0 < area2 t.c t.a q) ∨
  (area2 t.a t.b q < 0 ∧ area2 t.b t.c q < 0 ∧ area2 t.c t.a q < 0)

/-- `q` is in the closed triangle. -/
def Closed (t : Tri) (q : P2) : Prop :=
  (0 ≤ area2 t.a t.b q ∧ 0 ≤ area2 t.b t.c q ∧ 0 ≤ area2 t.c t.a q) ∨
  (area2 t.a t.b q ≤ 0 ∧ area2 t.b t.c q ≤ 0 ∧ area2 t.c t.a q ≤ 0)

/-- Half-open membership: `q`, pushed by an infinitesimal amount to the left (and by a square
infinitesimal amount upwards), is in the open triangle.  Every location off the edges is owned by
the triangle it is inside of; a location on an edge is owned by one of the two sides. -/
def Owns (t : Tri) (q : P2) : Prop :=
  ∃ e0 : ℚ, 0 < e0 ∧ ∀ e : ℚ, 0 < e → e ≤ e0 → Interior t ⟨q.x - e, q.y + e ^ 2⟩

/-- `v` is a vertex of `t`. -/
def IsVertex (t : Tri) (v : Pt) : Prop := v = t.a ∨ v = t.b ∨ v = t.c

/-- Vertex set. -/
def verts (t : Tri) : Finset Pt := {t.a, t.b, t.c}

/-- Calls of the exported API. -/
inductive Op
  | ins (p : Pt)
  | rem (p : Pt)
deriving DecidableEq

/-- Insertions. -/
def Op.isIns : Op → Bool
  | .ins _ => true
  | .rem _ => false

/-- Removals. -/
def Op.isRem : Op → Bool
  | .ins _ => false
  | .rem _ => true

/-- `Hist w h ops s m`: the history `ops` names only points of the `w` x `h` image, each `rem` names
a point stored at that time, `s` is the bag of points stored at the end, `m` the largest number of
different points stored at one time.  The two bounds are the capacities of the code: copy counts are
uint16, and slot numbers are uint16 while `n` different points need `2 n + 1` slots. -/
inductive Hist (w h : Nat) : List Op → Multiset Pt → Nat → Prop
  | nil : Hist w h [] 0 0
  | ins {ops s m} (p : Pt) : Hist w h ops s m → InImg w h p → s.count p < 65535 →
      (p ::ₘ s).dedup.card ≤ 32767 → Hist w h (ops ++ [Op.ins p]) (p ::ₘ s) (max m (p ::ₘ s).dedup.card)
  | rem {ops s m} (p : Pt) : Hist w h ops s m → p ∈ s → Hist w h (ops ++ [Op.rem p]) (s.erase p) m

/-- One call on a bag of points; removing an absent point is an error. -/
def bagStep (s : Multiset Pt) : Op → Option (Multiset Pt)
  | .ins p => some (p ::ₘ s)
  | .rem p => if p ∈ s then some (s.erase p) else none

/-- The bag after a sequence of calls. -/
def bag (ops : List Op) : Option (Multiset Pt) := ops.foldlM bagStep 0

/-- No four different points of `W` on one circle. -/
def GeneralPosition (W : Pt → Prop) : Prop :=
  ∀ a b c d, W a → W b → W c → W d → (∃ o, Centre ⟨a, b, c⟩ o ∧ d2 o d = d2 o a) →
    NonDegenerate ⟨a, b, c⟩ → d = a ∨ d = b ∨ d = c

/-! ### Facts about the vocabulary -/

theorem Hist.dedup_le {w h ops s m} (H : Hist w h ops s m) : s.dedup.card ≤ m ∧ m ≤ 32767 := by
  induction H with
  | nil => simp
  | ins p H hp hc hd ih => exact ⟨le_max_right _ _, max_le ih.2 hd⟩
  | rem p H hm ih =>
    refine ⟨le_trans (Multiset.card_le_card ?_) ih.1, ih.2⟩
    rw [Multiset.le_iff_subset (Multiset.nodup_dedup _)]
    intro x hx
    rw [Multiset.mem_dedup] at hx ⊢
    exact Multiset.mem_of_mem_erase hx

theorem Hist.img {w h ops s m} (H : Hist w h ops s m) : ∀ p ∈ s, InImg w h p := by
  induction H with
  | nil => simp
  | ins p H hp hc hd ih =>
    intro q hq
    rcases Multiset.mem_cons.mp hq with rfl | hq
    · exact hp
    · exact ih q hq
  | rem p H hm ih => intro q hq; exact ih q (Multiset.mem_of_mem_erase hq)

/-- Copies stored are insertions minus removals. -/
theorem Hist.count {w h ops s m} (H : Hist w h ops s m) (p : Pt) :
    s.count p + ops.count (Op.rem p) = ops.count (Op.ins p) := by
  induction H with
  | nil => simp
  | ins q H hp hc hd ih =>
    by_cases he : q = p
    · subst he; simp; omega
    · have h1 : (Op.ins q == Op.ins p) = false := by simpa using he
      simp [List.count_cons, h1, Multiset.count_cons_of_ne (Ne.symm he)]; omega
  | rem q H hm ih =>
    by_cases he : q = p
    · subst he
      have := Multiset.count_pos.mpr hm
      simp; omega
    · have h1 : (Op.rem q == Op.rem p) = false := by simpa using he
      simp [List.count_cons, h1, Multiset.count_erase_of_ne (Ne.symm he)]; omega

/-- Total stored is insertions minus removals. -/
theorem Hist.card {w h ops s m} (H : Hist w h ops s m) :
    s.card + ops.countP Op.isRem = ops.countP Op.isIns := by
  induction H with
  | nil => simp
  | ins q H hp hc hd ih => simp [Op.isIns, Op.isRem]; omega
  | rem q H hm ih =>
    have := Multiset.card_pos_iff_exists_mem.mpr ⟨_, hm⟩
    rw [Multiset.card_erase_of_mem hm]
    simp [Op.isIns, Op.isRem]; omega

end Verif.Spec

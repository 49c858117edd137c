import Verif.Spec.Voronoi

/-!
# Points around a centre
-/

namespace Verif.Spec

/-- The mean of a list of locations. -/
def avg (l : List (ℚ × ℚ)) : ℚ × ℚ := ((l.map Prod.fst).sum / l.length, (l.map Prod.snd).sum / l.length)

/-- Seen from `m`, `a` and `b` are in different directions (possibly opposite ones), and none is `m`. -/
def Apart (m a b : ℚ × ℚ) : Prop :=
  area m a b = 0 → (a.1 - m.1) * (b.1 - m.1) + (a.2 - m.2) * (b.2 - m.2) < 0

/-- Going around `m` counterclockwise (with y up) from `a` once, `b` is met before `c`: at least two of the three turns are less than
a half turn. -/
def Cyc (m a b c : ℚ × ℚ) : Prop :=
  (0 < area m a b ∧ 0 < area m b c) ∨ (0 < area m b c ∧ 0 < area m c a) ∨ (0 < area m c a ∧ 0 < area m a b)

end Verif.Spec

import Verif.Spec.Route
import Mathlib.Algebra.Order.Ring.Rat

/-! Vocabulary for free-flow times and delays. -/

namespace UX

/-- The last link added between its two nodes. -/
def World.LastOf (W : World) (l : LinkId) : Prop :=
  l < W.nLinks ∧ ∀ k, l < k → k < W.nLinks → W.L.startN k = W.L.startN l → W.L.endN k ≠ W.L.endN l

/-- A link whose cost `f` is used: the last one between its nodes, open and of positive cost. -/
def World.Counted (W : World) (f : LinkId → ℚ) (l : LinkId) : Prop :=
  W.LastOf l ∧ W.L.capIn l ≠ 0 ∧ 0 < f l

/-- Sum of the costs of links. -/
def costSum (f : LinkId → ℚ) (ls : List LinkId) : ℚ := (ls.map f).sum

/-- Free-flow time of a link. -/
def World.linkTime (W : World) (l : LinkId) : ℚ := W.L.length l / W.L.u l

end UX

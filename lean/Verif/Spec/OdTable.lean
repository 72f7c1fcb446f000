import Verif.Spec.Stats
import Mathlib.Algebra.Order.Ring.Rat
import Mathlib.Order.WithBot

/-! Vocabulary for the tables of origins and destinations. -/

namespace UX

/-- Arithmetic mean. -/
def mean (xs : List ℚ) : ℚ := xs.sum / xs.length

/-- Divide a possibly infinite sum. -/
def divTop (x : WithTop ℚ) (n : ℕ) : WithTop ℚ := x.map fun q => q / (n : ℚ)

namespace World

/-- Vehicles going from a node of `O` to a node of `D`. -/
def between (W : World) (O D : List NodeId) : List VehId :=
  W.withDest.filter fun v => decide (W.V.orig v ∈ O) && decide (∃ d ∈ D, W.V.dest v = some d)

/-- Those of them that have finished. -/
def doneBetween (W : World) (O D : List NodeId) : List VehId :=
  W.finished.filter fun v => decide (W.V.orig v ∈ O) && decide (∃ d ∈ D, W.V.dest v = some d)

end World
end UX

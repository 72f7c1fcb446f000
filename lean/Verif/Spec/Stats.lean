import Verif.Model.State

/-!
# Vocabulary for trip statistics
-/

namespace UX
namespace World

/-- The vehicles with a destination. -/
def withDest (W : World) : List VehId := (List.range W.nVeh).filter fun v => (W.V.dest v).isSome

/-- The vehicles with a destination that have finished their trip. -/
def finished (W : World) : List VehId := W.withDest.filter fun v => decide (W.V.state v = .ended)

/-- Some vehicle with the same origin and destination as `v` has finished. -/
def PairDone (W : World) (v : VehId) : Prop :=
  ∃ u ∈ W.finished, W.V.orig u = W.V.orig v ∧ W.V.dest u = W.V.dest v

instance (W : World) (v : VehId) : Decidable (W.PairDone v) := by unfold PairDone; infer_instance

end World
end UX

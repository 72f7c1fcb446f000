import Verif.Model.CppBuild
import Mathlib.Data.Finset.Card
import Mathlib.Data.Finset.Range

/-!
# Specification: the life of a vehicle of the C++ engine
-/

namespace UX.Cpp.Spec
open CWorld

/-- The order of the states: home, wait, run, then ended or aborted for good. -/
def Forward : VState → VState → Prop
  | .home, _ => True
  | .wait, s => s ≠ .home
  | .run, s => s ≠ .home ∧ s ≠ .wait
  | .ended, s => s = .ended
  | .abort, s => s = .abort

/-- The trip is over. -/
def Over (W : CWorld) (v : ℕ) : Prop := (W.veh v).state = .ended ∨ (W.veh v).state = .abort

/-- Departure, arrival and travel time of a vehicle are those of a trip: nobody leaves home early, a
finished trip took the time from its departure to its arrival at a time step already reached, and
any other vehicle has the value `-1`. -/
structure TimesOK (W : CWorld) (v : ℕ) : Prop where
  started : (W.veh v).state ≠ .home → (W.veh v).depTime ≤ W.now
  ended : (W.veh v).state = .ended → ∃ t, t ≤ W.g.timestep ∧
    (W.veh v).arrivalTime = W.g.fl (t * W.g.deltaT) ∧ (W.veh v).depTime ≤ (W.veh v).arrivalTime ∧
    (W.veh v).travelTime = W.g.fl ((W.veh v).arrivalTime - (W.veh v).depTime)
  other : (W.veh v).state ≠ .ended → (W.veh v).arrivalTime = -1 ∧ (W.veh v).travelTime = -1

/-- The vehicles whose trip is over. -/
def overSet (W : CWorld) : Finset ℕ :=
  (Finset.range W.g.nVehs).filter (fun v => (W.veh v).state = .ended ∨ (W.veh v).state = .abort)

/-- The vehicles that reached their destination. -/
def arrivedSet (W : CWorld) : Finset ℕ :=
  (Finset.range W.g.nVehs).filter (fun v => (W.veh v).state = .ended)

end UX.Cpp.Spec

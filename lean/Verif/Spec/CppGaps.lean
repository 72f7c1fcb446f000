import Verif.Spec.CppRows

/-!
# Specification: the spacing in the vehicle log of the C++ engine
-/

namespace UX.Cpp.Spec
open CWorld

/-- The spacing that the log of vehicle `v` shows for a vehicle `u` in front of it: the position of `u` less
the position of `v` at the beginning of the time step, where the position of `u` is the one at the beginning
of the time step, if `u` has the larger id, and the one at its end, if `u` has the smaller id. -/
def shownGap (W : CWorld) (u v : ℕ) : ℚ :=
  if v < u then W.g.fl ((W.veh u).xOld - (W.veh v).xOld) else W.g.fl ((W.veh u).x - (W.veh v).xOld)

/-- The last log entries of the vehicles on link `l` after a time step. They show the position at the
beginning of the time step and the spacing to the vehicle `lanes` places ahead. If there is none, they
show −1, or the spacing to a vehicle with a larger id that has ended its trip in this time step. -/
def GapsShown (W : CWorld) (l : ℕ) : Prop :=
  ∀ j v, (W.link l).vehs[j]? = some v → ∃ e, (W.veh v).log.getLast? = some e ∧ e.x = (W.veh v).xOld ∧
    (∀ u, (W.link l).lanes ≤ j → (W.link l).vehs[j - (W.link l).lanes]? = some u → e.s = shownGap W u v) ∧
    (j < (W.link l).lanes → e.s = -1 ∨ ∃ u, v < u ∧
      ((W.veh u).state = .ended ∨ (W.veh u).state = .abort) ∧ e.s = shownGap W u v)

end UX.Cpp.Spec

import Mathlib.Algebra.Field.Rat
import Mathlib.Data.Rat.Cast.Order

/-!
# Triangular fundamental diagrams (C33)
-/

namespace UX

/-- Free-flow speed `u`, backward wave speed `w`, jam density `kappa`, capacity `cap` and critical
density `k` describe one triangular flow-density relation: the free-flow branch through the origin
and the congested branch through the jam density meet at `(k, cap)`, strictly inside. -/
structure Triangle (u w kappa cap k : ℚ) : Prop where
  pos : 0 < k
  jam : k < kappa
  free : cap = u * k
  congested : cap = w * (kappa - k)

/-- The flow parameters of a link with `lanes` lanes fit together. -/
structure Diagram (reaction : ℚ) (lanes : ℕ) (u kappa tau w cap delta deltaLane : ℚ) : Prop where
  lane : 0 < lanes
  react : tau * lanes = reaction
  wave : w * tau * kappa = 1
  spacing : delta * kappa = 1
  laneSpacing : deltaLane * kappa = lanes
  triangle : Triangle u w kappa cap (cap / u)
  bound : cap < lanes / reaction

end UX

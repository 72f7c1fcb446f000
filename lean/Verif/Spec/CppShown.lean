import Verif.Model.CppShown

/-!
# What the attributes of a link object have to say
-/

namespace UX.Cpp.Spec

/-- The attributes are the numbers the engine computes with. -/
structure Mirrors (L : CLink) (o : LinkObj) : Prop where
  u : o.u = L.vmax
  kappa : o.kappa = L.kappa
  tau : o.tau = L.tau
  w : o.w = L.bws
  capacity : o.capacity = L.cap
  delta : o.delta = L.delta
  deltaLane : o.deltaLane = L.deltaLane
  lanes : o.lanes = L.lanes
  length : o.length = L.len
  speed : o.freeFlow = o.u
  jam : o.jam = o.kappa
  apex : o.qStar = o.capacity

/-- The triangular relation of flow and density: it rises with slope `u` from density 0, falls with slope `w` to
density `kappa`, and `(k_star, q_star)` is the top. `tau` is the reaction time of the world. -/
structure Triangle (tau : ℚ) (o : LinkObj) : Prop where
  rise : o.u * o.kStar = o.qStar
  fall : o.w * (o.kappa - o.kStar) = o.qStar
  top : 0 < o.kStar ∧ o.kStar < o.kappa
  capacity : o.capacity = o.qStar
  react : o.tau * o.lanes = tau
  wave : o.w * o.tau = o.delta
  spacing : o.delta * o.kappa = 1
  lane : o.deltaLane = o.delta * o.lanes

end UX.Cpp.Spec

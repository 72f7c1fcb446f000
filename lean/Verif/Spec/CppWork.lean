import Verif.Spec.CppKin

/-!
# Specification: no vehicle of the C++ engine is held up without reason
-/

namespace UX.Cpp.Spec
open CWorld

/-- Link `l` can take one more vehicle: it has fewer vehicles than lanes, or the vehicle `lanes` places from
the end has driven more than the jam spacing; and there is inflow capacity left. -/
def HasRoom (W : CWorld) (l : ℕ) : Prop :=
  ((W.link l).vehs.length < (W.link l).lanes ∨
    ∃ u, (W.link l).vehs[(W.link l).vehs.length - (W.link l).lanes]? = some u ∧ jamGap W l < (W.veh u).x) ∧
  W.g.deltaN ≤ (W.link l).capInRem

/-- Vehicle `v` has arrived as the first vehicle at the end of link `a` and wants to continue on `b`. -/
structure FirstFor (W : CWorld) (v a b : ℕ) : Prop where
  on : a < W.g.nLinks
  first : (W.link a).vehs.head? = some v
  arrived : v ∈ (W.link a).arrived
  next : (W.veh v).next = some b

/-- Link `a` may discharge a vehicle: there is outflow capacity left and the signal is green. -/
def MayLeave (W : CWorld) (a : ℕ) : Prop :=
  W.g.deltaN ≤ (W.link a).capOutRem ∧
  ((W.node (W.link a).dst).sigPhase ∈ (W.link a).group ∨ (W.node (W.link a).dst).sigInt.length ≤ 1)

/-- The world in a time step that starts with `W` when it is the turn of node `n` to let vehicles depart. -/
def departTurn (σ : Sched) (W : CWorld) (n : ℕ) : CWorld :=
  (σ.gen.takeWhile (· ≠ n)).foldl nodeStage (σ.update.foldl linkUpdate W.clearExc)

/-- The world in a time step that starts with `W` when it is the turn of node `n` to transfer vehicles. -/
def nodeTurn (σ : Sched) (W : CWorld) (n : ℕ) : CWorld :=
  (List.range n).foldl transfer (σ.gen.foldl nodeStage (σ.update.foldl linkUpdate W.clearExc))

end UX.Cpp.Spec

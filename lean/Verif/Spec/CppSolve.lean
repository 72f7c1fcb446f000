import Verif.Spec.CppSwap
import Verif.Model.CppSolve

/-!
# Specification of the C++ solvers
-/

namespace UX.Cpp.Spec
open CWorld

/-- A world built for a day of scenario `W0`: with exact arithmetic, vehicle logs and at least one vehicle. -/
structure GoodBuild (W0 V : CWorld) : Prop where
  clean : CleanReach V
  new : NewDay V
  same : SameScenario W0 V
  fl : V.g.fl = id
  log : V.g.logMode = true
  dt : 0 < V.g.deltaT
  veh : 0 < V.g.nVehs

/-- On day `d'` the vehicles whose trip ended on day `d` have the routes decided then, which are ways from their origin to
their destination; the others have none. -/
def HandedOn (d d' : Day) : Prop := ∀ v, v < d.world.g.nVehs →
  ((d.world.veh v).state = .ended → GoodPlan d'.world v ∧ Planned v d'.world ∧
    ∃ x, d.rows[v]? = some x ∧ (d'.world.veh v).route = x.spec) ∧
  ((d.world.veh v).state ≠ .ended → Unplanned d'.world v)

/-- Every vehicle of the day has a travel time. -/
def Complete (d : Day) : Prop := ∀ v, v < d.world.g.nVehs → (d.world.veh v).travelTime ≠ -1

/-- Day `i` is the first of the complete days with the least average. -/
def BestDay (avg : CWorld → ℚ) (ds : List Day) (W : CWorld) : Prop :=
  ∃ (i : ℕ) (d : Day), ds[i]? = some d ∧ d.world = W ∧ Complete d ∧
    ∀ (j : ℕ) (d' : Day), ds[j]? = some d' → Complete d' → avg W ≤ avg d'.world ∧ (j < i → avg W < avg d'.world)

end UX.Cpp.Spec

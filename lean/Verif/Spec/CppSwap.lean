import Verif.Spec.CppDta
import Verif.Spec.CppPlan
import Verif.Model.CppDta

/-!
# Specification of a day of the C++ traffic assignment
-/

namespace UX.Cpp.Spec
open CWorld

/-- `r` is the first of the cheapest routes of `rs`. -/
def Cheapest (c : List ℕ → ℚ) (rs : List (List ℕ)) (r : List ℕ) : Prop :=
  ∃ i : ℕ, rs[i]? = some r ∧ (∀ q ∈ rs, c r ≤ c q) ∧ ∀ (j : ℕ) (q : List ℕ), j < i → rs[j]? = some q → c r < c q

/-- What a vehicle decides that drove `driven` at the cost `own`, has the alternatives `rs` at the costs `c`, and
may change (`may`) or not. `N` is the number of vehicles in a platoon. -/
structure Decision (N : ℚ) (may : Bool) (driven : List ℕ) (own : ℚ) (c : List ℕ → ℚ) (rs : List (List ℕ))
    (x : SwapRow) : Prop where
  /-- it keeps its route if it may not change or no route is cheaper -/
  keep : may = false ∨ (∀ r ∈ rs, own ≤ c r) → x.spec = driven ∧ x.nSwap = 0
  /-- otherwise it takes the cheapest -/
  change : may = true → (∃ r ∈ rs, c r < own) → Cheapest c rs x.spec ∧ x.nSwap = N
  /-- it is content if no route is cheaper -/
  content : (∀ r ∈ rs, own ≤ c r) → x.pot = 0 ∧ x.gap = 0
  /-- otherwise it is a potential changer, and counts with a gain that one of the routes offers -/
  envious : (∃ r ∈ rs, c r < own) → x.pot = N ∧ 0 < x.gap ∧ ∃ r ∈ rs, x.gap ≤ own - c r
  /-- a vehicle that may not change counts with the gain of the last cheaper route -/
  last : may = false → ∀ (i : ℕ) (r : List ℕ), rs[i]? = some r → c r < own →
    (∀ (j : ℕ) (q : List ℕ), i < j → rs[j]? = some q → own ≤ c q) → x.gap = own - c r

/-- The costs decide about vehicle `v`: its trip has ended, there are routes from its origin to its destination, and, if
the routes were given from outside, its route is one of them. -/
def Decides (W : CWorld) (sets : ℕ → ℕ → Option (List (List ℕ))) (ext : Bool) (v : ℕ) (rs : List (List ℕ)) : Prop :=
  (W.veh v).state = .ended ∧ sets (W.veh v).orig (W.veh v).dest = some rs ∧
    (ext = true → (W.traveledRoute v).1 ∈ rs ∨ rs = [])

/-- The routes of a set are ways from the origin to the destination. -/
def SetsOK (W : CWorld) (sets : ℕ → ℕ → Option (List (List ℕ))) : Prop :=
  ∀ (o d : ℕ) (rs : List (List ℕ)) (r : List ℕ), sets o d = some rs → r ∈ rs →
    Way W o r ∧ ∃ l, r.getLast? = some l ∧ (W.link l).dst = d

/-- `V` has the same links between the same nodes and the same vehicles with the same trips as `W`. -/
def SameScenario (W V : CWorld) : Prop :=
  V.g.nLinks = W.g.nLinks ∧ V.g.nVehs = W.g.nVehs ∧
    (∀ l, l < W.g.nLinks → (V.link l).src = (W.link l).src ∧ (V.link l).dst = (W.link l).dst) ∧
    ∀ v, v < W.g.nVehs → (V.veh v).orig = (W.veh v).orig ∧ (V.veh v).dest = (W.veh v).dest

/-- The vehicles of a world built for a new day: none has departed, none has a route or links to avoid. -/
def NewDay (V : CWorld) : Prop :=
  CReach V ∧ ∀ v, v < V.g.nVehs → (V.veh v).state = .home ∧ Unplanned V v ∧ Planned v V

end UX.Cpp.Spec

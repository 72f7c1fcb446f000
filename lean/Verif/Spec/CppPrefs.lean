import Verif.Model.CppBuild

/-!
# Specification: route preferences
-/

namespace UX.Cpp.Spec

/-- The weight by which preferences move towards the shortest paths in one update: `duo_update_weight`, in
`route_choice_update_gradual` mode its share of one time step. -/
def updWeight (W : CWorld) : ℚ :=
  if W.g.gradual = true then W.g.duoWeight * (W.g.deltaT / W.g.duoTime) else W.g.duoWeight

/-- Shortest paths are searched in this time step. -/
def SearchDue (W : CWorld) : Prop := 0 < W.g.routeSteps ∧ W.g.timestep % W.g.routeSteps = 0

/-- Preferences are updated in this time step. -/
def UpdateDue (W : CWorld) : Prop := W.g.gradual = true ∨ SearchDue W

/-- The weight used for destination `k`: the whole way as long as all preferences are 0. -/
def rowWeight (W : CWorld) (k : ℕ) : ℚ :=
  if ∀ l, l < W.g.nLinks → W.g.pref k l = 0 then 1 else updWeight W

/-- Link `l` lies on the shortest path to node `k` that the tables of `W` give. -/
def OnPath (W : CWorld) (k l : ℕ) : Prop := W.g.next (W.link l).src k = some (W.link l).dst

instance (W : CWorld) (k l : ℕ) : Decidable (OnPath W k l) := by unfold OnPath; infer_instance

end UX.Cpp.Spec

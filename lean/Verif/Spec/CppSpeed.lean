import Verif.Spec.CppPace

/-!
# Specification: speeds in the C++ engine
-/

namespace UX.Cpp.Spec
open CWorld

/-- The speed limit of the link of a log entry, 0 if it names none. -/
def limitOf (W : CWorld) : Option ℕ → ℚ
  | some a => (W.link a).vmax
  | none => 0

/-- Every speed in the log is at most the larger of the limits of the link of the entry and of the link of the
entry before (`p` for the first one); positions are on the link. -/
def Driven (W : CWorld) : Option ℕ → List CLog → Prop
  | _, [] => True
  | p, e :: r => (∀ l, e.link = some l → 0 ≤ e.x ∧ e.x ≤ (W.link l).len ∧ 0 ≤ e.v ∧
      e.v ≤ max (W.link l).vmax (limitOf W p)) ∧ Driven W e.link r

/-- No vehicle is faster than the limit of its link, and no travel time recorded by `set_travel_time` is below the
time at free-flow speed. -/
structure Slow (W : CWorld) : Prop where
  veh : ∀ l, l < W.g.nLinks → ∀ v ∈ (W.link l).vehs, 0 ≤ (W.veh v).v ∧ (W.veh v).v ≤ (W.link l).vmax
  tt : ∀ l, l < W.g.nLinks → ∀ t, t < W.g.timestep → (W.link l).len / (W.link l).vmax ≤ (W.link l).ttInst t

end UX.Cpp.Spec

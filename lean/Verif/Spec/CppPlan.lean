import Verif.Spec.CppRows

/-!
# Specification: vehicles with a specified route
-/

namespace UX.Cpp.Spec
open CWorld

/-- Worlds that arise by calls of the bindings, in which the specified route of vehicle `v` was only
changed before its departure. -/
inductive Planned (v : ℕ) : CWorld → Prop
  | empty (fl : ℚ → ℚ) (tMax deltaN tau duoTime duoWeight noise : ℚ)
      (hardDet gradual noCyclic adjustCap logMode : Bool) (ttInterval : ℕ) :
      Planned v (CWorld.empty fl tMax deltaN tau duoTime duoWeight noise hardDet gradual noCyclic
        adjustCap logMode ttInterval)
  | step {W W' : CWorld} : Planned v W → CStep W W' →
      ((W'.veh v).route = (W.veh v).route ∨ (W.veh v).state = .home ∨ (W.veh v).state = .wait) →
      Planned v W'

theorem Planned.toReach {v : ℕ} {W : CWorld} (h : Planned v W) : CReach W := by
  induction h with
  | empty fl tMax deltaN tau duoTime duoWeight noise hardDet gradual noCyclic adjustCap logMode ttInterval =>
    exact CReach.empty fl tMax deltaN tau duoTime duoWeight noise hardDet gradual noCyclic adjustCap
      logMode ttInterval
  | step _ s _ ih => exact CReach.step ih s

/-- The specified route of `v` is a way from its origin to its destination. -/
def GoodPlan (W : CWorld) (v : ℕ) : Prop :=
  Way W (W.veh v).orig (W.veh v).route ∧
    ∃ l, (W.veh v).route.getLast? = some l ∧ (W.link l).dst = (W.veh v).dest

/-- Vehicle `v` is free to choose: no specified route, no links to avoid. -/
def Unplanned (W : CWorld) (v : ℕ) : Prop := (W.veh v).route = [] ∧ (W.veh v).avoid = []

end UX.Cpp.Spec

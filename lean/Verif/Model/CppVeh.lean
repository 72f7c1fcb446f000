import Verif.Model.CppWrap

/-!
# Vehicles of the C++ mode as seen from Python

The properties of `CppVehicle` that convert the data of the engine (uxsim_cpp_wrapper.py:507–566), and
`traveled_route` (uxsim_cpp_wrapper.py:665–681).
-/

namespace UX.Cpp
namespace CWorld

/-- `state` (uxsim_cpp_wrapper.py:508–515). -/
def pyState (W : CWorld) (v : ℕ) : VState :=
  if (W.veh v).state = .ended then
    if (W.veh v).flagAbort = true ∨ ((W.veh v).arrivalTime < 0 ∧ (W.veh v).travelTime ≤ 0) then .abort else .ended
  else (W.veh v).state

/-- `departure_time` (uxsim_cpp_wrapper.py:521–523), a number of time steps. -/
def pyDeparture (W : CWorld) (v : ℕ) : ℤ := pyInt (W.g.fl ((W.veh v).depTime / W.g.deltaT))

/-- `arrival_time` (uxsim_cpp_wrapper.py:529–537), a number of time steps. -/
def pyArrival (W : CWorld) (v : ℕ) : ℤ :=
  if 0 ≤ (W.veh v).arrivalTime then
    if W.pyState v = .abort then -1 else pyInt (W.g.fl ((W.veh v).arrivalTime / W.g.deltaT))
  else -1

/-- `travel_time` (uxsim_cpp_wrapper.py:539–543), in seconds. -/
def pyTravel (W : CWorld) (v : ℕ) : ℚ := if W.pyState v = .abort then -1 else (W.veh v).travelTime

/-- `flag_trip_aborted` (uxsim_cpp_wrapper.py:545–552). -/
def pyAborted (W : CWorld) (v : ℕ) : Bool :=
  (W.veh v).flagAbort ||
    decide ((W.veh v).state = .ended ∧ (W.veh v).arrivalTime < 0 ∧ (W.veh v).travelTime ≤ 0)

/-- `link` (uxsim_cpp_wrapper.py:554–562); `LINKS` has the links of the engine in their order. -/
def pyLink (W : CWorld) (v : ℕ) : Option ℕ :=
  match (W.veh v).link with
  | some l => if l < W.g.nLinks then some l else none
  | none => none

end CWorld

namespace Wrap

/-- The links of `traveled_route` (uxsim_cpp_wrapper.py:665–676) for the list `log_t_link`. -/
def routeLinks (p : List (ℚ × WPlace)) : List ℕ :=
  p.filterMap (fun q => match q.2 with | .link l => some l | _ => none)

/-- The times of `traveled_route` (uxsim_cpp_wrapper.py:665–680). -/
def routeTimes (p : List (ℚ × WPlace)) (arr dep : Bool) : List ℚ :=
  p.filterMap (fun q => match q.2 with
    | .home => if dep then some q.1 else none
    | .link _ => some q.1
    | .done => none) ++
  match p.getLast? with
  | none => []
  | some q => if arr then [if q.2 = .done then q.1 else -1] else []

/-- `traveled_route` (uxsim_cpp_wrapper.py:665–681). -/
def traveledRoute (W : Wrap) (v : ℕ) (arr dep : Bool) : Option (List ℕ × List ℚ) :=
  (W.log v).map (fun L => (routeLinks L.places, routeTimes L.places arr dep))

end Wrap
end UX.Cpp

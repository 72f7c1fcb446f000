import Verif.Model.CppDta

/-!
# Link queries of the C++ mode

The methods and properties of `CppLink` that read the state of the engine (uxsim_cpp_wrapper.py:292–457).
Arrays are cached once the simulation is over, when they no longer change (C109); the cache is not
modelled. `u` and `length` are those of the engine.
-/

namespace UX.Cpp
namespace CWorld

/-- `arrival_count(t)` (uxsim_cpp_wrapper.py:389–393). `cum_arrival` is the whole array of the engine, of
`total_timesteps` entries, which are 0 at first (traffi.cpp:516, bindings.cpp:819–822). -/
def arrivalCount (W : CWorld) (l : ℕ) (t : ℚ) : ℚ :=
  if W.g.totalSteps = 0 then 0 else (W.link l).arr (W.timeIdx t W.g.totalSteps)

/-- `departure_count(t)` (uxsim_cpp_wrapper.py:395–399). -/
def departureCount (W : CWorld) (l : ℕ) (t : ℚ) : ℚ :=
  if W.g.totalSteps = 0 then 0 else (W.link l).dep (W.timeIdx t W.g.totalSteps)

/-- `inflow_between(t0, t1)` (uxsim_cpp_wrapper.py:401–402). -/
def inflowBetween (W : CWorld) (l : ℕ) (t0 t1 : ℚ) : ℚ :=
  if t1 ≠ t0 then W.g.fl (W.g.fl (W.arrivalCount l t1 - W.arrivalCount l t0) / W.g.fl (t1 - t0)) else 0

/-- `num_vehicles_t(t)` (uxsim_cpp_wrapper.py:410–411). -/
def numVehiclesAt (W : CWorld) (l : ℕ) (t : ℚ) : ℚ := W.g.fl (W.arrivalCount l t - W.departureCount l t)

/-- `average_density(t)` (uxsim_cpp_wrapper.py:413–414). -/
def averageDensity (W : CWorld) (l : ℕ) (t : ℚ) : ℚ := W.g.fl (W.numVehiclesAt l t / (W.link l).len)

/-- `instant_travel_time(t)` (uxsim_cpp_wrapper.py:416–426). -/
def instantTime (W : CWorld) (l : ℕ) (t : ℚ) : ℚ :=
  if W.g.totalSteps = 0 then W.g.fl ((W.link l).len / (W.link l).vmax)
  else (W.link l).ttInst (W.timeIdx t W.g.totalSteps)

/-- `average_speed(t)` (uxsim_cpp_wrapper.py:440–442); `actual_travel_time` (uxsim_cpp_wrapper.py:428–438)
computes what `dtaTime` does. -/
def averageSpeed (W : CWorld) (l : ℕ) (t : ℚ) : ℚ :=
  if 0 < W.dtaTime l t then W.g.fl ((W.link l).len / W.dtaTime l t) else (W.link l).vmax

/-- `average_flow(t)` (uxsim_cpp_wrapper.py:444–445). -/
def averageFlow (W : CWorld) (l : ℕ) (t : ℚ) : ℚ := W.g.fl (W.averageDensity l t * W.averageSpeed l t)

/-- `num_vehicles` (uxsim_cpp_wrapper.py:381–383). -/
def numVehicles (W : CWorld) (l : ℕ) : ℚ := W.g.fl ((W.link l).vehs.length * W.g.deltaN)

/-- `num_vehicles_queue` (uxsim_cpp_wrapper.py:385–387, traffi.cpp:589–597). -/
def numQueue (W : CWorld) (l : ℕ) : ℚ :=
  W.g.fl (((W.link l).vehs.filter (fun v => decide ((W.veh v).v < (W.link l).vmax))).length * W.g.deltaN)

/-- `speed` (uxsim_cpp_wrapper.py:366–371, bindings.cpp:811–816). -/
def linkSpeed (W : CWorld) (l : ℕ) : ℚ :=
  if (W.link l).vehs = [] then (W.link l).vmax
  else W.g.fl ((W.link l).vehs.foldl (fun s v => W.g.fl (s + (W.veh v).v)) 0 / (W.link l).vehs.length)

/-- `density` (uxsim_cpp_wrapper.py:373–375). -/
def linkDensity (W : CWorld) (l : ℕ) : ℚ := W.g.fl (W.numVehicles l / (W.link l).len)

/-- `flow` (uxsim_cpp_wrapper.py:377–379). -/
def linkFlow (W : CWorld) (l : ℕ) : ℚ := W.g.fl (W.linkDensity l * W.linkSpeed l)

end CWorld
end UX.Cpp

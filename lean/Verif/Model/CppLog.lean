import Verif.Model.CppSim

/-!
# Reading the vehicle logs of the C++ engine

Times and states of log entries are not stored: `log_t_at` and `log_state_at` reconstruct them from four
counters per vehicle (traffi.cpp:1112–1133).
-/

namespace UX.Cpp
namespace CWorld

/-- `Vehicle::log_t_at` (traffi.cpp:1117–1122), `i` being less than `log_size`. -/
def logTAt (W : CWorld) (v i : ℕ) : ℚ :=
  let V := W.veh v
  let ts : ℤ := if i < V.log.length - V.logEnd then V.logFirst + i else V.logLast
  W.g.fl (ts * W.g.deltaT)

/-- `Vehicle::log_state_at` (traffi.cpp:1128–1133). -/
def logStateAt (W : CWorld) (v i : ℕ) : VState :=
  let V := W.veh v
  if 0 < V.logEnd ∧ V.log.length - V.logEnd ≤ i then V.state
  else if i = 0 then .home
  else if i < 1 + V.logWait then .wait
  else .run

/-- The loop over one vehicle's log in `build_enter_log_data` (traffi.cpp:1970–1979), also used for
`log_t_link` (traffi.cpp:2062–2071) and in `dta_get_traveled_route` (dta_solver.cpp:40–48): `prev` is
`prev_link_id` (`none` for the start value -999), `i` the index of the next entry. -/
def enterScan (t : ℕ → ℚ) : Option ℕ → ℕ → List (Option ℕ) → List (ℕ × ℚ)
  | _, _, [] => []
  | prev, i, none :: r => enterScan t prev (i + 1) r
  | prev, i, some l :: r =>
    if prev = some l then enterScan t prev (i + 1) r else (l, t i) :: enterScan t (some l) (i + 1) r

/-- The entries of `build_enter_log_data` for vehicle `v` (traffi.cpp:1965–1983): link and time. -/
def enterLog (W : CWorld) (v : ℕ) : List (ℕ × ℚ) :=
  enterScan (W.logTAt v) none 0 ((W.veh v).log.map CLog.link)

/-- `dta_get_traveled_route` (dta_solver.cpp:30–54): links, entry times and arrival time (-1: none). -/
def traveledRoute (W : CWorld) (v : ℕ) : List ℕ × List ℚ × ℚ :=
  let es := enterScan (W.logTAt v) none 0 ((W.veh v).log.map CLog.link)
  (es.map Prod.fst, es.map Prod.snd,
    if (W.veh v).state = .ended ∧ 0 ≤ (W.veh v).arrivalTime then (W.veh v).arrivalTime else -1)

/-- `n_missing` (traffi.cpp:2002–2006): the number of time steps before the first entry. -/
def nMissing (W : CWorld) (v : ℕ) : ℕ :=
  if (W.veh v).log ≠ [] ∧ 0 < W.logTAt v 0 then (pyInt (W.g.fl (W.logTAt v 0 / W.g.deltaT))).toNat else 0

end CWorld
end UX.Cpp

import Verif.Model.Reach

/-!
# Read-only queries of a link (uxsim.py:691–876)

`t//DELTAT` on floats is modelled as the floor of the exact quotient. The returned numbers are not
rounded (counts are integers; the ratios are exact quotients).
-/

namespace UX
namespace World

/-- `int(t//s.W.DELTAT)` (uxsim.py:705, 726, 818, 839). -/
def stepIndex (W : World) (t : ℚ) : M ℤ :=
  if W.dt = 0 then .error .zeroDivision else .ok ⌊t / W.dt⌋

/-- `xs[-1]` if the index is too large, `xs[0]` if it is negative, else `xs[tt]`
(uxsim.py:706–710 and the same lines of the sibling functions), on a list in chronological order. -/
def readAt {α : Type} (xs : List α) (tt : ℤ) : M α :=
  let r := if (xs.length : ℤ) ≤ tt then xs.getLast? else if tt < 0 then xs.head? else xs[tt.toNat]?
  match r with | some a => .ok a | none => .error .indexError

/-- `Link.arrival_count` (uxsim.py:691–710). -/
def arrivalCount (W : World) (l : LinkId) (t : ℚ) : M ℕ := do
  readAt (W.L.cumArr l).reverse (← W.stepIndex t)

/-- `Link.departure_count` (uxsim.py:712–731). -/
def departureCount (W : World) (l : LinkId) (t : ℚ) : M ℕ := do
  readAt (W.L.cumDep l).reverse (← W.stepIndex t)

/-- `Link.num_vehicles_t` (uxsim.py:772–786). -/
def numVehiclesT (W : World) (l : LinkId) (t : ℚ) : M ℤ := do
  let a ← W.arrivalCount l t
  let d ← W.departureCount l t
  pure ((a : ℤ) - d)

/-- `Link.num_vehicles` (uxsim.py:922–926), without its cache. -/
def numVehicles (W : World) (l : LinkId) : ℕ := (W.L.vehs l).length * W.dn

/-- `Link.num_vehicles_queue` (uxsim.py:928–932), without its cache. -/
def numVehiclesQueue (W : World) (l : LinkId) : ℕ :=
  ((W.L.vehs l).filter (fun v => decide (W.V.v v < W.L.u l))).length * W.dn

/-- `Link.inflow_between` (uxsim.py:733–749). -/
def inflowBetween (W : World) (l : LinkId) (t0 t1 : ℚ) : M ℚ := do
  let b ← W.arrivalCount l t1
  let a ← W.arrivalCount l t0
  if t1 - t0 = 0 then throw .zeroDivision
  pure (((b : ℚ) - a) / (t1 - t0))

/-- `Link.average_density` (uxsim.py:788–802). -/
def averageDensity (W : World) (l : LinkId) (t : ℚ) : M ℚ := do
  let k ← W.numVehiclesT l t
  if W.L.length l = 0 then throw .zeroDivision
  pure (k / W.L.length l)

/-- `Link.instant_travel_time` (uxsim.py:804–823). -/
def instantTravelTime (W : World) (l : LinkId) (t : ℚ) : M ℚ := do
  readAt (W.L.ttInstant l).reverse (← W.stepIndex t)

/-- `Link.actual_travel_time` (uxsim.py:825–844). -/
def actualTravelTime (W : World) (l : LinkId) (t : ℚ) : M ℚ := do
  readAt (W.L.ttActual l) (← W.stepIndex t)

/-- `Link.average_speed` (uxsim.py:846–860). -/
def averageSpeed (W : World) (l : LinkId) (t : ℚ) : M ℚ := do
  let q ← W.instantTravelTime l t
  if q = 0 then throw .zeroDivision
  pure (W.L.length l / q)

/-- `Link.average_flow` (uxsim.py:862–876). -/
def averageFlow (W : World) (l : LinkId) (t : ℚ) : M ℚ := do
  let v ← W.averageSpeed l t
  let k ← W.averageDensity l t
  pure (v * k)

/-- `Link.average_travel_time_between` (uxsim.py:751–770): mean over the keys of
`vehicles_enter_log`. -/
def averageTravelTimeBetween (W : World) (l : LinkId) (t0 t1 : ℚ) : M ℚ := do
  let ts := ((W.L.enterLog l).reverse.map (·.1)).filter (fun t => decide (t0 ≤ t ∧ t < t1))
  if ts = [] then
    if W.L.u l = 0 then throw .zeroDivision
    pure (W.L.length l / W.L.u l)
  else
    let qs ← ts.mapM (W.actualTravelTime l)
    pure (qs.sum / qs.length)

end World
end UX

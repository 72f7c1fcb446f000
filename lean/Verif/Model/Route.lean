import Verif.Model.Query

/-!
# Route objects and the travelled route of a vehicle

`Route.__init__`, `Route.actual_travel_time` (uxsim.py:2879–2992) and `Vehicle.traveled_route`
(uxsim.py:1428–1479).
-/

namespace UX
namespace World

/-- `Route.__init__` with `trust_input=False` (uxsim.py:2912–2926): the stored links. `get_link` of a
repeated element is evaluated twice in Python, with the same result. -/
def mkRoute (W : World) : List Ref → M (List LinkId)
  | [] => .ok []
  | [a] => do
    let l ← W.getLink a
    pure [l]
  | a :: b :: t => do
    let l1 ← W.getLink a
    let l2 ← W.getLink b
    if (W.N.outlinks (W.L.endN l1)).contains l2 then
      let r ← W.mkRoute (b :: t)
      pure (l1 :: r)
    else throw .exception

/-- Loop of `Route.actual_travel_time` (uxsim.py:2979–2987): accumulated time, clock, and the list of
link travel times. -/
def routeTravelTime (W : World) : List LinkId → (tt t : ℚ) → M (ℚ × List ℚ)
  | [], tt, _ => .ok (tt, [])
  | l :: ls, tt, t => do
    let q ← W.actualTravelTime l t
    let r ← W.routeTravelTime ls (W.fl (tt + q)) (W.fl (t + q))
    pure (r.1, q :: r.2)

/-- Links in the route log of a vehicle, newest first. -/
def loggedLinks (W : World) (v : VehId) : List LinkId :=
  (W.V.logTLink v).filterMap (fun p => match p.2 with | .link l => some l | _ => none)

/-- `Vehicle.traveled_route` (uxsim.py:1428–1479). -/
def traveledRoute (W : World) (v : VehId) (incArr incDep : Bool) : M (List LinkId × List ℚ) := do
  let log := (W.V.logTLink v).reverse
  let ts := log.filterMap (fun p => match p.2 with
    | .home => if incDep then some p.1 else none
    | .link _ => some p.1
    | _ => none)
  match log.getLast? with
  | none => throw .indexError
  | some p =>
    let ts' := if incArr then ts ++ [if p.2 = .ended then p.1 else -1] else ts
    let r ← W.mkRoute ((W.loggedLinks v).reverse.map Ref.obj)
    pure (r, ts')

end World
end UX

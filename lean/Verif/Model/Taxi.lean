import Verif.Model.Sim

/-!
# Taxi handler (uxsim/TaxiHandler/TaxiHandler.py)

The requests live in `W.H` (one handler per world). `random.shuffle` uses its own random numbers, given
as an argument.
-/

namespace UX
namespace World

/-- `TaxiHandler.add_trip_request` (TaxiHandler.py:87–107) and `TripRequest.__init__` (12–43). -/
def addTripRequest (W : World) (o d : Ref) (t : ℚ) : M World := do
  let o ← W.getNode o
  let d ← W.getNode d
  let r := W.H.nReq
  pure { W with H := { W.H with
    nReq := r + 1
    orig := upd W.H.orig r o
    dest := upd W.H.dest r d
    departTime := upd W.H.departTime r t
    getTaxiTime := upd W.H.getTaxiTime r none
    arrivalTime := upd W.H.arrivalTime r none
    taxi := upd W.H.taxi r none
    pending := W.H.pending ++ [r] } }

/-- `TaxiHandler.assign_taxi` (TaxiHandler.py:109–127). -/
def assignTaxi (W : World) (v : VehId) (r : ReqId) : M World :=
  if r ∉ W.H.pending then .error .valueError
  else do
    let W1 ← W.addDest v (W.H.orig r) none
    let W2 := W1.setEvent v (W1.H.orig r) (some (.getOn r))
    pure { W2 with H := { W2.H with
      taxi := upd W2.H.taxi r (some v)
      pending := W2.H.pending.erase r } }

/-- `vacant_taxis` (TaxiHandler.py:223, 247, 281). -/
def vacantTaxis (W : World) : List VehId :=
  (List.range W.nVeh).filter (fun v =>
    decide (W.V.mode v = .taxi) && decide (W.V.state v = .run) && decide (W.V.dest v = none))

/-- Loop of `TaxiHandler_random.assign_trip_request_to_taxi` (TaxiHandler.py:225–230):
`vacant_taxis.pop()` takes the last one. -/
def assignRandomLoop : List ReqId → List VehId → World → M World
  | [], _, W => .ok W
  | r :: rs, vac, W =>
    match vac.getLast? with
    | none => .ok W
    | some v =>
      if W.H.departTime r ≤ W.time then do
        let W1 ← W.assignTaxi v r
        assignRandomLoop rs vac.dropLast W1
      else assignRandomLoop rs vac W

/-- `TaxiHandler_random.assign_trip_request_to_taxi` (TaxiHandler.py:219–230). -/
def assignRandom (W : World) (rnd : ℕ → ℕ) : M World :=
  let vac := W.vacantTaxis
  assignRandomLoop W.H.pending (shuffle rnd vac.length vac).1 W

/-- Position of a running vehicle (`get_xy_coords()`, uxsim.py:1481–1505, latest position), exact
arithmetic. -/
def xyCoords (W : World) (v : VehId) : M (ℚ × ℚ) :=
  match W.V.link v with
  | none => .error .attributeError
  | some l =>
    if W.L.length l = 0 then .error .zeroDivision
    else
      let s := W.L.startN l
      let e := W.L.endN l
      .ok (W.N.x s + (W.N.x e - W.N.x s) * W.V.x v / W.L.length l,
           W.N.y s + (W.N.y e - W.N.y s) * W.V.x v / W.L.length l)

/-- Squared distance between a taxi and a node. The code compares square roots; comparing squares is
equivalent because the square root is monotone. -/
def sqDist (W : World) (v : VehId) (n : NodeId) : M ℚ := do
  let (x, y) ← W.xyCoords v
  pure ((x - W.N.x n) ^ 2 + (y - W.N.y n) ^ 2)

/-- Search for the nearest taxi, within squared radius `rad2` if given
(TaxiHandler.py:252–260, 286–294). `<=`: among equals the last one wins. -/
def nearestLoop (W : World) (n : NodeId) (rad2 : Option ℚ) :
    List VehId → Option (ℚ × VehId) → M (Option (ℚ × VehId))
  | [], best => .ok best
  | v :: vs, best => do
    let d ← W.sqDist v n
    let inR := match rad2 with | some q => decide (d ≤ q) | none => true
    let better := match best with | some (q, _) => decide (d ≤ q) | none => true
    nearestLoop W n rad2 vs (if inR && better then some (d, v) else best)

/-- Loop of the two "nearest" handlers (TaxiHandler.py:248–263, 282–297). -/
def assignNearestLoop (rad2 : Option ℚ) : List ReqId → List VehId → World → M World
  | [], _, W => .ok W
  | r :: rs, vac, W =>
    if vac = [] then .ok W
    else if W.H.departTime r ≤ W.time then do
      match ← W.nearestLoop (W.H.orig r) rad2 vac none with
      | none => assignNearestLoop rad2 rs vac W
      | some (_, v) =>
        let W1 ← W.assignTaxi v r
        assignNearestLoop rad2 rs (vac.erase v) W1
    else assignNearestLoop rad2 rs vac W

/-- `TaxiHandler_nearest` (`rad2 = none`) and `TaxiHandler_nearest_matching_radious`
(TaxiHandler.py:233–297); `rad2` is the squared matching radius. -/
def assignNearest (W : World) (rad2 : Option ℚ) : M World :=
  assignNearestLoop rad2 W.H.pending W.vacantTaxis W

end World
end UX

import Verif.Model.Build

/-!
# One simulation time step

`Link.update`, `Node.generate`, `Node.update`, `Node.transfer`, `Vehicle.carfollow`,
`Vehicle.update`, `Vehicle.end_trip`, `RouteChoice`, function by function.
-/

namespace UX

/-- Filter with a predicate that may raise (a Python list comprehension whose condition can raise). -/
def filterE {α : Type} (p : α → M Bool) : List α → M (List α)
  | [] => .ok []
  | a :: t => do
    let b ← p a
    let r ← filterE p t
    pure (if b then a :: r else r)

/-- Keys of a dict built by inserting the list from left to right. -/
def uniqFirst {α : Type} [DecidableEq α] : List α → List α
  | [] => []
  | a :: t => a :: (uniqFirst t).filter (fun b => decide (b ≠ a))

/-- `d[key] = v` on an insertion-ordered dict stored newest-first. -/
def dictSet {κ α : Type} [DecidableEq κ] (d : List (κ × α)) (key : κ) (a : α) : List (κ × α) :=
  if d.any (fun p => decide (p.1 = key)) then d.map (fun p => if p.1 = key then (key, a) else p)
  else (key, a) :: d

namespace World

/-! ## Link.update -/

/-- `Link.speed` without its cache (uxsim.py:901–908): mean speed, or `u` on an empty link. The
numpy average is rounded once. The cache `_speed` is modelled separately. -/
def linkSpeed (W : World) (l : LinkId) : ℚ :=
  if W.L.vehs l = [] then W.L.u l
  else W.fl (((W.L.vehs l).map W.V.v).sum / (W.L.vehs l).length)

/-- `in_out_flow_constraint` (uxsim.py:665–677). `capacity_in` is never `None` (559–563), so the
`else` branch is dead. -/
def refillCaps (W : World) (l : LinkId) : World :=
  { W with L := { W.L with
      capOutRem := upd W.L.capOutRem l
        (if W.L.capOutRem l < W.dn * W.L.lanes l
          then W.fl (W.L.capOutRem l + W.fl (W.L.capOut l * W.dt)) else W.L.capOutRem l)
      capInRem := upd W.L.capInRem l
        (if W.L.capInRem l < W.dn * W.L.lanes l
          then W.fl (W.L.capInRem l + W.fl (W.L.capIn l * W.dt)) else W.L.capInRem l) } }

/-- New entry of `traveltime_instant` (`set_traveltime_instant`, uxsim.py:679–689). An interval of 0
(`ZeroDivisionError` in Python) is outside the model. -/
def newTtInstant (W : World) (l : LinkId) : M ℚ :=
  if W.T % W.cfg.ttInterval = 0 then
    if 0 < W.linkSpeed l then .ok (W.fl (W.L.length l / W.linkSpeed l))
    else .ok (W.fl (W.L.length l / W.fl (W.L.u l / 100)))
  else match W.L.ttInstant l with
    | [] => .error .indexError
    | q :: _ => .ok q

/-- `cum.append(0); if len>1: cum[-1] = cum[-2]` (uxsim.py:649–653), newest-first. -/
def pushCum : List ℕ → List ℕ
  | [] => [0]
  | a :: t => a :: a :: t

/-- `Link.update` (uxsim.py:642–663). -/
def linkUpdate (W : World) (l : LinkId) : M World :=
  let W1 := W.refillCaps l
  match W1.newTtInstant l with
  | .error e => .error e
  | .ok q => .ok { W1 with L := { W1.L with
      ttInstant := upd W1.L.ttInstant l (q :: W1.L.ttInstant l)
      cumArr := upd W1.L.cumArr l (pushCum (W1.L.cumArr l))
      cumDep := upd W1.L.cumDep l (pushCum (W1.L.cumDep l)) } }

/-! ## Vehicle.record_log and Vehicle.end_trip -/

/-- Is a full log row due? (uxsim.py:1516–1517). Interval 0 (`ZeroDivisionError`) is outside the
model. -/
def logDue (W : World) (enforce : Bool) : Bool :=
  decide (W.cfg.logInterval ≠ -1) &&
    (decide (W.cfg.logInterval = 1) || decide ((W.T : ℤ) % W.cfg.logInterval = 0) || enforce)

/-- The row appended to `log_t` … `log_lane` (uxsim.py:1522–1545). -/
def logRow (W : World) (v : VehId) : LogRow :=
  if W.V.state v = .run then
    { t := W.now, state := .run, link := W.V.link v, x := W.V.x v,
      s := match W.V.leader v with
        | some w => if W.V.link v = W.V.link w then W.fl (W.V.x w - W.V.x v) else -1
        | none => -1
      v := W.V.v v, lane := W.V.lane v }
  else { t := W.now, state := W.V.state v, link := none, x := -1, s := -1, v := -1, lane := -1 }

/-- First part of `record_log` (uxsim.py:1516–1549): log row and running mean speed. -/
def recordRow (W : World) (v : VehId) (enforce : Bool) : World :=
  if W.logDue enforce then
    let W1 := { W with V := { W.V with log := upd W.V.log v (W.logRow v :: W.V.log v) } }
    match W.V.state v with
    | .run => { W1 with
        avgCount := W.avgCount + 1
        avgSpeed := W.fl (W.avgSpeed + W.fl (W.fl (W.V.v v - W.avgSpeed) / (W.avgCount + 1 : ℕ))) }
    | .wait => { W1 with avgCount := W.avgCount + 1 }
    | _ => W1
  else W

/-- Second part of `record_log` (uxsim.py:1551–1556): route log. -/
def recordRoute (W : World) (v : VehId) : World :=
  if W.V.link v = W.V.linkOld v then W
  else
    { W with V := { W.V with
        logTLink := match W.V.state v, W.V.link v with
          | .run, some l => upd W.V.logTLink v ((W.now, .link l) :: W.V.logTLink v)
          | .ended, _ => upd W.V.logTLink v ((W.now, .ended) :: W.V.logTLink v)
          | _, _ => W.V.logTLink
        linkOld := upd W.V.linkOld v (W.V.link v) } }

/-- `Vehicle.record_log` (uxsim.py:1507–1556). -/
def recordLog (W : World) (v : VehId) (enforce : Bool) : World :=
  (W.recordRow v enforce).recordRoute v

/-- Effect of `end_trip` up to the call of `record_log` (uxsim.py:1225–1244), for a vehicle on
link `l`. -/
def endTripCore (W : World) (v : VehId) (l : LinkId) : World :=
  { W with
    running := W.running.erase v
    living := W.living.erase v
    trace := .finish W.T v l (W.V.flagAborted v) :: W.trace
    L := { W.L with
      cumDep := upd W.L.cumDep l (bumpHead W.dn (W.L.cumDep l))
      ttActual := upd W.L.ttActual l
        (sliceFrom (W.L.ttActual l) (pyInt (W.fl (W.V.linkArrTime v / W.dt)))
          (W.fl (W.fl ((W.T + 1 : ℕ) * W.dt) - W.V.linkArrTime v)))
      vehs := upd W.L.vehs l (W.L.vehs l).tail }
    V := { W.V with
      state := upd W.V.state v (if W.V.flagAborted v then .abort else .ended)
      leader := match W.V.follower v with
        | some f => upd W.V.leader f none
        | none => W.V.leader
      link := upd W.V.link v none
      x := upd W.V.x v 0
      arrTime := upd W.V.arrTime v (if W.V.flagAborted v then -1 else W.T)
      travelTime := upd W.V.travelTime v
        (if W.V.flagAborted v then -1 else W.fl ((W.T - W.V.depTime v : ℤ) * W.dt)) } }

/-- `Vehicle.end_trip` (uxsim.py:1221–1249). `reduce_memory_delete_vehicle_route_pref` is not
modelled. -/
def endTrip (W : World) (v : VehId) : M World :=
  match W.V.link v with
  | none => .error .attributeError
  | some l =>
    if W.L.cumDep l = [] ∨ W.L.vehs l = [] then .error .indexError
    else if v ∉ W.running ∨ v ∉ W.living then .error .keyError
    else .ok ((W.endTripCore v l).recordLog v true)

/-! ## Entering a link -/

/-- Space condition shared by `generate` and `transfer` (uxsim.py:268, 330): fewer vehicles than
lanes, or the vehicle `number_of_lanes` places from the back is farther than the spacing; and
`capacity_in_remain >= DELTAN`. -/
def canEnter (W : World) (l : LinkId) : Bool :=
  (decide ((W.L.vehs l).length < W.L.lanes l) ||
    match backN (W.L.vehs l) (W.L.lanes l) with
    | some w => decide (W.gap l < W.V.x w)
    | none => false) &&
  decide ((W.dn : ℚ) ≤ W.L.capInRem l)

/-- Lane of a vehicle entering `l` (uxsim.py:278–281, 371–374). -/
def newLane (W : World) (l : LinkId) : ℕ :=
  match (W.L.vehs l).getLast? with
  | some w => (W.V.lane w + 1) % W.L.lanes l
  | none => 0

/-- Lane and leader assignment (uxsim.py:278–287, 371–380), including the `assert`. -/
def attachLeader (W : World) (v : VehId) (l : LinkId) : M World :=
  let W1 := { W with V := { W.V with
    lane := upd W.V.lane v (W.newLane l)
    leader := upd W.V.leader v none } }
  if W.L.lanes l ≤ (W.L.vehs l).length then
    match backN (W.L.vehs l) (W.L.lanes l) with
    | none => .error .indexError
    | some w =>
      if W1.V.lane w = W1.V.lane v then
        .ok { W1 with V := { W1.V with
          leader := upd W1.V.leader v (some w)
          follower := upd W1.V.follower w (some v) } }
      else .error .assertionError
  else .ok W1

/-! ## Link choice -/

/-- `veh.route_pref[l.id]` -/
def prefOf (W : World) (v : VehId) (l : LinkId) : M ℚ :=
  match W.V.pref v with
  | .dict f => match f l with | some q => .ok q | none => .error .keyError
  | .duo k => .ok (W.R.pref k l)

/-- `sorted(..., key=lambda l: l.name)` -/
def sortByName (W : World) (ls : List LinkId) : List LinkId :=
  ls.mergeSort (fun a b => decide (W.L.name a ≤ W.L.name b))

/-- Candidate links after `links_prefer` / `links_avoid` (uxsim.py:249–252, 1337–1340). -/
def preferAvoid (W : World) (v : VehId) (ls : List LinkId) : List LinkId :=
  let o1 := if ls.any (fun l => (W.V.linksPrefer v).contains l)
    then W.sortByName (ls.filter (fun l => (W.V.linksPrefer v).contains l)) else ls
  if o1.any (fun l => (W.V.linksAvoid v).contains l)
    then W.sortByName (o1.filter (fun l => !(W.V.linksAvoid v).contains l)) else o1

/-- Draw one of the candidate links according to the vehicle's preferences (uxsim.py:259–266,
1348–1356). -/
def chooseLink (W : World) (v : VehId) (ls : List LinkId) : M (LinkId × World) := do
  let ps ← ls.mapM (fun l => (W.prefOf v l).map (fun q => (q, l)))
  if W.cfg.hardDet then
    let l ← argmaxFirst ps
    pure (l, W)
  else
    let l ← if 0 < (ps.map (·.1)).sum then choiceW ps (W.rng 0) else choiceU ls (W.rng 0)
    pure (l, W.draw.2)

/-! ## Node.generate -/

/-- Candidate links of a vehicle about to leave its origin queue (uxsim.py:246–257). -/
def originCandidates (W : World) (v : VehId) (n : NodeId) : M (List LinkId) :=
  match W.V.specRoute v with
  | none => .ok (W.preferAvoid v (W.N.outlinks n))
  | some [] => .error .indexError
  | some (l :: _) => if (W.N.outlinks n).contains l then .ok [l] else .error .valueError

/-- Departure of vehicle `v`, head of the queue of node `n`, onto link `l`
(uxsim.py:269–295). -/
def depart (W : World) (n : NodeId) (v : VehId) (l : LinkId) : M World := do
  if W.L.cumArr l = [] then throw .indexError
  let W1 : World := { W with
    running := W.running ++ [v]
    N := { W.N with genq := upd W.N.genq n (W.N.genq n).tail }
    V := { W.V with
      state := upd W.V.state v .run
      link := upd W.V.link v (some l)
      x := upd W.V.x v 0
      v := upd W.V.v v (W.L.u l) } }
  let W2 ← W1.attachLeader v l
  pure { W2 with
    trace := .depart W2.T v n l :: W2.trace
    L := { W2.L with
      vehs := upd W2.L.vehs l (W2.L.vehs l ++ [v])
      enterLog := upd W2.L.enterLog l (dictSet (W2.L.enterLog l) W2.now v)
      cumArr := upd W2.L.cumArr l (bumpHead W2.dn (W2.L.cumArr l))
      capInRem := upd W2.L.capInRem l (W2.fl (W2.L.capInRem l - W2.dn)) }
    V := { W2.V with linkArrTime := upd W2.V.linkArrTime v W2.now } }

/-- The attempt loop of `generate` (uxsim.py:242–301). -/
def generateLoop (n : NodeId) : ℕ → World → M World
  | 0, W => .ok W
  | k + 1, W =>
    match W.N.genq n with
    | [] => .ok W
    | v :: _ => do
      let cands ← W.originCandidates v n
      let (l, W1) ← W.chooseLink v cands
      if W1.canEnter l then
        let W2 ← W1.depart n v l
        generateLoop n k W2
      else pure W1

/-- `Node.generate` (uxsim.py:232–301). -/
def generate (W : World) (n : NodeId) : M World :=
  generateLoop n ((W.N.outlinks n).map W.L.lanes).sum W

/-! ## Node.update -/

/-- `signal_control` (uxsim.py:207–219). -/
def signalControl (W : World) (n : NodeId) : M World :=
  match (W.N.signal n)[W.N.phase n]? with
  | none => .error .indexError
  | some g =>
    let sw := decide (g < W.N.signalT n)
    let ph := if sw then
        (if (W.N.signal n).length ≤ W.N.phase n + 1 then 0 else W.N.phase n + 1)
      else W.N.phase n
    let t := if sw then 0 else W.N.signalT n
    .ok { W with N := { W.N with
      phase := upd W.N.phase n ph
      signalT := upd W.N.signalT n (W.fl (t + W.dt))
      signalLog := upd W.N.signalLog n (ph :: W.N.signalLog n) } }

/-- `flow_capacity_update` (uxsim.py:222–230). -/
def flowCapUpdate (W : World) (n : NodeId) : World :=
  match W.N.flowCap n with
  | some c =>
    if W.N.flowCapRem n < W.dn * (W.N.lanes n).getD 0 then
      { W with N := { W.N with
        flowCapRem := upd W.N.flowCapRem n (W.fl (W.N.flowCapRem n + W.fl (c * W.dt))) } }
    else W
  | none => { W with N := { W.N with flowCapRem := upd W.N.flowCapRem n 100000000000 } }

/-- `Node.update` (uxsim.py:414–421). -/
def nodeUpdate (W : World) (n : NodeId) : M World :=
  match W.signalControl n with
  | .error e => .error e
  | .ok W1 => .ok (W1.flowCapUpdate n)

/-! ## Node.transfer -/

/-- Keys of `outlink_candidates`, each repeated `number_of_lanes` times (uxsim.py:318–322). -/
def transferSlots (W : World) (n : NodeId) : M (List LinkId) :=
  if (W.N.incoming n).any (fun v => decide (W.V.rnl v = .unset)) then .error .attributeError
  else
    let keys := uniqFirst ((W.N.incoming n).filterMap
      (fun v => match W.V.rnl v with | .to l => some l | _ => none))
    .ok (keys.flatMap (fun l => List.replicate (W.L.lanes l) l))

/-- Condition of the list comprehension `vehs` (uxsim.py:332–338). -/
def eligible (W : World) (n : NodeId) (b : LinkId) (v : VehId) : M Bool :=
  match W.V.link v with
  | none => .error .attributeError
  | some a =>
    match W.L.vehs a with
    | [] => .error .indexError
    | h :: _ => .ok (decide (h = v) && decide (W.V.rnl v = .to b) &&
        (decide (W.N.phase n ∈ W.L.signalGroup a) || decide ((W.N.signal n).length ≤ 1)) &&
        decide ((W.dn : ℚ) ≤ W.L.capOutRem a))

/-- Merge priority of the link a vehicle is on. -/
def mergeOf (W : World) (v : VehId) : ℚ :=
  match W.V.link v with | some a => W.L.mergePriority a | none => 0

/-- Choice of the vehicle that merges (uxsim.py:341–347). -/
def pickMerge (W : World) (vs : List VehId) : M (VehId × World) :=
  let s := (vs.map W.mergeOf).sum
  let ws := if s = 0 then vs.map (fun v => ((1 : ℚ), v)) else vs.map (fun v => (W.mergeOf v, v))
  if W.cfg.hardDet then (argmaxFirst ws).map (fun v => (v, W))
  else
    let tot := (ws.map (·.1)).sum
    (choiceW (ws.map (fun p => (p.1 / tot, p.2))) (W.rng 0)).map (fun v => (v, W.draw.2))

/-- First half of moving `v` from link `a` to link `b` (uxsim.py:351–369): counters, capacities,
queue of `a`, and detaching the follower. -/
def leaveLink (W : World) (n : NodeId) (v : VehId) (a b : LinkId) : World :=
  let capIn := upd W.L.capInRem b (W.fl (W.L.capInRem b - W.dn))
  { W with
    trace := .pass W.T v n a b (W.N.phase n) :: W.trace
    L := { W.L with
      cumDep := upd W.L.cumDep a (bumpHead W.dn (W.L.cumDep a))
      cumArr := upd W.L.cumArr b (bumpHead W.dn (W.L.cumArr b))
      ttActual := upd W.L.ttActual a
        (sliceFrom (W.L.ttActual a) (pyInt (W.fl (W.V.linkArrTime v / W.dt)))
          (W.fl (W.now - W.V.linkArrTime v)))
      capOutRem := upd W.L.capOutRem a (W.fl (W.L.capOutRem a - W.dn))
      capInRem := capIn
      vehs := upd W.L.vehs a (W.L.vehs a).tail
      enterLog := upd W.L.enterLog b (dictSet (W.L.enterLog b) W.now v) }
    N := { W.N with
      flowCapRem := match W.N.flowCap n with
        | some _ => upd W.N.flowCapRem n (W.fl (W.N.flowCapRem n - W.dn))
        | none => W.N.flowCapRem }
    V := { W.V with
      linkArrTime := upd W.V.linkArrTime v W.now
      link := upd W.V.link v (some b)
      x := upd W.V.x v 0
      leader := match W.V.follower v with
        | some f => upd W.V.leader f none
        | none => W.V.leader
      follower := match W.V.follower v with
        | some _ => upd W.V.follower v none
        | none => W.V.follower } }

/-- Position reached on the new link with the remaining movement (uxsim.py:382–396). -/
def carryOver (W : World) (v : VehId) (a b : LinkId) : ℚ :=
  let x0 := W.fl (W.fl (W.V.moveRemain v * W.L.u b) / W.L.u a)
  let x1 := match W.V.leader v with
    | some w =>
      let xc := W.fl (W.V.xOld w - W.gap b)
      let xc := if xc < W.V.x v then W.V.x v else xc
      if xc < x0 then xc else x0
    | none => x0
  if W.L.length b ≤ x1 then W.L.length b else x1

/-- `veh.x = x_next; veh.v += veh.x/DELTAT; veh.move_remain = 0` (uxsim.py:394–396). -/
def placeOn (W : World) (v : VehId) (q : ℚ) : World :=
  { W with V := { W.V with
    x := upd W.V.x v q
    v := upd W.V.v v (W.fl (W.V.v v + W.fl (q / W.dt)))
    moveRemain := upd W.V.moveRemain v 0 } }

/-- End the trip of the head vehicle of `l` if it waits for that (uxsim.py:398–400, 407–408).
Returns whether it did. -/
def endHead (W : World) (l : LinkId) : M (World × Bool) :=
  match W.L.vehs l with
  | [] => .ok (W, false)
  | h :: _ => if W.V.flagEnd h then (W.endTrip h).map (fun W' => (W', true)) else .ok (W, false)

/-- Transfer of vehicle `v` from `a` to `b` at node `n` (uxsim.py:349–403). -/
def moveVeh (W : World) (n : NodeId) (v : VehId) (a b : LinkId) : M World := do
  if W.L.cumDep a = [] ∨ W.L.cumArr b = [] then throw .indexError
  if W.L.u a = 0 then throw .zeroDivision
  let W2 ← (W.leaveLink n v a b).attachLeader v b
  let W3 := W2.placeOn v (W2.carryOver v a b)
  let (W4, _) ← W3.endHead a
  pure { W4 with
    L := { W4.L with vehs := upd W4.L.vehs b (W4.L.vehs b ++ [v]) }
    N := { W4.N with incoming := upd W4.N.incoming n ((W4.N.incoming n).erase v) } }

/-- One iteration of the loop over `outlinks` (uxsim.py:327–403). -/
def transferOne (n : NodeId) (W : World) (b : LinkId) : M World :=
  if W.canEnter b && decide ((W.dn : ℚ) ≤ W.N.flowCapRem n) then do
    let vs ← filterE (W.eligible n b) (W.N.incoming n)
    match vs with
    | [] => pure W
    | _ :: _ =>
      let (v, W1) ← W.pickMerge vs
      match W1.V.link v with
      | none => throw .attributeError
      | some a => W1.moveVeh n v a b
  else .ok W

/-- Inner loop of the final clean-up (uxsim.py:406–410). -/
def endHeads (l : LinkId) : ℕ → World → M World
  | 0, W => .ok W
  | k + 1, W => do
    let (W1, b) ← W.endHead l
    if b then endHeads l k W1 else pure W1

/-- `Node.transfer` (uxsim.py:303–412). -/
def transfer (W : World) (n : NodeId) : M World := do
  let slots0 ← W.transferSlots n
  let (slots, W1) :=
    if W.cfg.hardDet then (slots0, W)
    else
      let (p, r) := shuffle W.rng slots0.length slots0
      (p, { W with rng := r })
  let W2 ← slots.foldlM (transferOne n) W1
  let W3 ← (W2.N.inlinks n).foldlM (fun W l => endHeads l (W.L.lanes l) W) W2
  pure { W3 with N := { W3.N with incoming := upd W3.N.incoming n [] } }

/-! ## Vehicle.carfollow -/

/-- Desired next position before the link end is taken into account (uxsim.py:1255–1261). -/
def followPos (W : World) (v : VehId) (l : LinkId) : ℚ :=
  let x0 := W.fl (W.V.x v + W.fl (W.L.u l * W.dt))
  match W.V.leader v with
  | some w =>
    let xc := W.fl (W.V.x w - W.gap l)
    let xc := if xc < W.V.x v then W.V.x v else xc
    if xc < x0 then xc else x0
  | none => x0

/-- `Vehicle.carfollow` (uxsim.py:1251–1265). -/
def carfollow (W : World) (v : VehId) : M World :=
  match W.V.link v with
  | none => .error .attributeError
  | some l =>
    let q := W.followPos v l
    if W.L.length l < q then
      .ok { W with V := { W.V with
        moveRemain := upd W.V.moveRemain v (W.fl (q - W.L.length l))
        xNext := upd W.V.xNext v (W.L.length l) } }
    else .ok { W with V := { W.V with xNext := upd W.V.xNext v q } }

/-! ## Route preference and next-link choice -/

/-- `{l.id: 0 for l in W.LINKS}` with 1 on links toward `k` (uxsim.py:1311–1318). -/
def heteroNew (W : World) (k : NodeId) (l : LinkId) : ℚ :=
  if W.R.next (W.L.startN l) k = some (W.L.endN l) then 1 else 0

/-- `Vehicle.route_pref_update` (uxsim.py:1287–1324). Before finalization `W.ROUTECHOICE` does not
exist (`AttributeError`). -/
def routePrefUpdate (W : World) (v : VehId) (weight : ℚ) : M World :=
  match W.V.principle v with
  | .homogeneous =>
    match W.V.dest v with
    | some k =>
      if W.finalized then .ok { W with V := { W.V with pref := upd W.V.pref v (.duo k) } }
      else .error .attributeError
    | none => .ok { W with V := { W.V with pref := upd W.V.pref v (.dict (zeroDict W.nLinks)) } }
  | .heterogeneous =>
    match W.V.dest v with
    | none => .error .attributeError
    | some k =>
      if !W.finalized then .error .attributeError
      else match W.V.pref v with
        | .duo _ => .error .attributeError
        | .dict f =>
          let total := ((List.range W.nLinks).map (fun l => (f l).getD 0)).sum
          let wt := if total = 0 then 1 else weight
          let f' : LinkId → Option ℚ := fun l =>
            (f l).map (fun q => (1 - wt) * q + wt * W.heteroNew k l)
          .ok { W with V := { W.V with pref := upd W.V.pref v (.dict f') } }

/-- Start nodes of the links in the route log (uxsim.py:1343). -/
def traveledNodes (W : World) (v : VehId) : List NodeId :=
  (W.V.logTLink v).filterMap (fun p => match p.2 with
    | .link l => some (W.L.startN l) | _ => none)

/-- Candidate links of `route_next_link_choice` when no route is specified
(uxsim.py:1332–1346), for a vehicle whose current link ends at `n`. -/
def nextCandidates (W : World) (v : VehId) (n : NodeId) : List LinkId :=
  let o := W.preferAvoid v (W.N.outlinks n)
  if W.cfg.noCyclic && decide (W.V.mode v ≠ .taxi) then
    let o' := o.filter (fun l => !(W.traveledNodes v).contains (W.L.endN l))
    if o' = [] then o else o'
  else o

/-- assignment to `route_next_link` -/
def setRnl (W : World) (v : VehId) (r : Rnl) : World :=
  { W with V := { W.V with rnl := upd W.V.rnl v r } }

/-- `Vehicle.route_next_link_choice` (uxsim.py:1326–1368). -/
def nextLinkChoice (W : World) (v : VehId) : M World :=
  match W.V.link v with
  | none => .error .attributeError
  | some a =>
    let n := W.L.endN a
    match W.V.specRoute v with
    | none =>
      if W.V.dest v = some n then .ok W
      else if W.N.outlinks n = [] then .ok (W.setRnl v .none)
      else do
        let (l, W1) ← W.chooseLink v (W.nextCandidates v n)
        pure (W1.setRnl v (.to l))
    | some route =>
      if W.N.outlinks n = [] then .ok (W.setRnl v .none)
      else match route[(W.V.logTLink v).length - 1]? with
        | none => .error .indexError
        | some l => if (W.N.outlinks n).contains l then .ok (W.setRnl v (.to l))
          else .error .valueError

/-! ## Taxi events -/

/-- `Vehicle.add_dest(node, order)` with a Node object and `order >= -1` (uxsim.py:1371–1392).
`list.insert` clips positions beyond the end. -/
def addDest (W : World) (v : VehId) (d : NodeId) (order : Option ℕ) : M World :=
  match W.V.mode v with
  | .single => .error .valueError
  | .taxi =>
    match W.V.dest v with
    | none =>
      ({ W with V := { W.V with dest := upd W.V.dest v (some d) } } : World).routePrefUpdate v 1
    | some _ =>
      let dl := W.V.destList v
      let dl' := match order with
        | none => dl ++ [d]
        | some k => dl.take k ++ d :: dl.drop k
      .ok { W with V := { W.V with destList := upd W.V.destList v dl' } }

/-- `node_event[n] = e` / `del node_event[n]` -/
def setEvent (W : World) (v : VehId) (n : NodeId) (e : Option TaxiEvent) : World :=
  { W with V := { W.V with nodeEvent := upd W.V.nodeEvent v (upd (W.V.nodeEvent v) n e) } }

/-- `TripRequest.get_on_taxi` and `TripRequest.arrive_at_dest` (TaxiHandler.py:46–66). -/
def runEvent (W : World) : TaxiEvent → M World
  | .getOn r =>
    match W.H.taxi r with
    | none => .error .attributeError
    | some tv => do
      let W1 ← W.addDest tv (W.H.dest r) none
      let W2 := W1.setEvent tv (W1.H.dest r) (some (.arrive r))
      let W3 := { W2 with H := { W2.H with getTaxiTime := upd W2.H.getTaxiTime r (some W2.time) } }
      if W3.V.nodeEvent tv (W3.H.orig r) = none then throw .keyError
      pure (W3.setEvent tv (W3.H.orig r) none)
  | .arrive r =>
    match W.H.taxi r with
    | none => .error .attributeError
    | some tv => do
      let W1 := { W with H := { W.H with arrivalTime := upd W.H.arrivalTime r (some W.time) } }
      if W1.V.nodeEvent tv (W1.H.dest r) = none then throw .keyError
      pure (W1.setEvent tv (W1.H.dest r) none)

/-! ## Vehicle.update -/

/-- Movement inside the link (uxsim.py:1170–1174). -/
def advance (W : World) (v : VehId) : World :=
  { W with V := { W.V with
    v := upd W.V.v v (W.fl (W.fl (W.V.xNext v - W.V.x v) / W.dt))
    xOld := upd W.V.xOld v (W.V.x v)
    x := upd W.V.x v (W.V.xNext v)
    dist := upd W.V.dist v (W.fl (W.V.dist v + W.fl (W.V.xNext v - W.V.x v))) } }

/-- `incoming_vehicles.append(s)` -/
def pushIncoming (W : World) (n : NodeId) (v : VehId) : World :=
  { W with N := { W.N with incoming := upd W.N.incoming n (W.N.incoming n ++ [v]) } }

/-- `flag_waiting_for_trip_end = 1; if link.vehicles[0] == s: end_trip()`
(uxsim.py:1187–1190, 1207–1209). -/
def waitEnd (W : World) (v : VehId) (a : LinkId) : M World :=
  let W1 := { W with V := { W.V with flagEnd := upd W.V.flagEnd v true } }
  match W1.L.vehs a with
  | [] => .error .indexError
  | h :: _ => if h = v then W1.endTrip v else .ok W1

/-- Next destination of a taxi (uxsim.py:1193–1197). -/
def nextDest (W : World) (v : VehId) : World :=
  match W.V.destList v with
  | d :: ds => { W with V := { W.V with
      dest := upd W.V.dest v (some d), destList := upd W.V.destList v ds } }
  | [] => { W with V := { W.V with
      dest := upd W.V.dest v none, destList := upd W.V.destList v [] } }

/-- Link-end processing of `Vehicle.update` after events (uxsim.py:1185–1213). -/
def atLinkEnd (W : World) (v : VehId) (a : LinkId) : M World :=
  let n := W.L.endN a
  if W.V.dest v = some n then
    match W.V.mode v with
    | .single => W.waitEnd v a
    | .taxi => do
      let W1 ← (W.nextDest v).routePrefUpdate v 1
      let W2 ← W1.nextLinkChoice v
      pure (W2.pushIncoming n v)
  else if W.N.outlinks n = [] ∧ W.V.tripAbort v = true then
    ({ W with V := { W.V with
        flagAborted := upd W.V.flagAborted v true
        rnl := upd W.V.rnl v .none } } : World).waitEnd v a
  else do
    let W1 ← W.nextLinkChoice v
    pure (W1.pushIncoming n v)

/-- The `run` branch of `Vehicle.update` (uxsim.py:1168–1213). -/
def runUpdate (W : World) (v : VehId) : M World :=
  let W1 := W.advance v
  match W1.V.link v with
  | none => .error .attributeError
  | some a =>
    if W1.V.x v = W1.L.length a then do
      let W2 ← match W1.V.nodeEvent v (W1.L.endN a) with
        | some e => W1.runEvent e
        | none => pure W1
      let W3 ← if W2.cfg.gradual then W2.routePrefUpdate v 1 else pure W2
      W3.atLinkEnd v a
    else .ok W1

/-- Departure from home into the origin queue (uxsim.py:1156–1160). -/
def startWait (W : World) (v : VehId) : World :=
  if W.V.state v = .home ∧ W.V.depTime v ≤ W.T then
    { W with
      trace := .queue W.T v (W.V.orig v) :: W.trace
      V := { W.V with state := upd W.V.state v .wait }
      N := { W.N with genq := upd W.N.genq (W.V.orig v) (W.N.genq (W.V.orig v) ++ [v]) } }
  else W

/-- `Vehicle.update` (uxsim.py:1143–1219). -/
def vehUpdate (W : World) (v : VehId) : M World :=
  let W1 := (W.recordLog v false).startWait v
  match W1.V.state v with
  | .wait => if W1.cfg.gradual then W1.routePrefUpdate v 1 else .ok W1
  | .run => W1.runUpdate v
  | _ => .ok W1

/-- `W.VEHICLES_LIVING[name].update()` (uxsim.py:2474–2475); the lookup raises `KeyError` if the
vehicle has meanwhile been removed. -/
def vehUpdateLiving (W : World) (v : VehId) : M World :=
  if v ∈ W.living then W.vehUpdate v else .error .keyError

/-! ## RouteChoice -/

/-- `rng.uniform(1, 1+noise)` from one raw random number. -/
def noiseFactor (noise : ℚ) (r : ℕ) : ℚ := 1 + noise * ((r % 2 ^ 53 : ℕ) / 2 ^ 53 : ℚ)

/-- Accumulator of the adjacency-matrix loop. -/
structure AdjAcc where
  adj : NodeId → NodeId → Option ℚ
  cnt : NodeId → NodeId → ℕ
  rng : ℕ → ℕ

/-- One iteration over `W.LINKS` in `route_search_all` (uxsim.py:1605–1621). Routing arithmetic is
exact (no rounding). Every link has `ADJ_MAT = 1` (2350–2359), so the `else` branch is dead. -/
def adjStep (W : World) (t : ℚ) (acc : AdjAcc) (l : LinkId) : M AdjAcc :=
  match W.L.ttInstant l with
  | [] => .error .indexError
  | q :: _ =>
    let i := W.L.startN l
    let j := W.L.endN l
    let tt := if W.cfg.hardDet then q + W.L.toll l t
      else q * noiseFactor W.cfg.duoNoise (acc.rng 0) + W.L.toll l t
    let n : ℚ := acc.cnt i j
    let a := (acc.adj i j).map (fun a => a * n / (n + 1) + tt / (n + 1))
    let a := if W.L.capIn l = 0 then none else a
    .ok { adj := upd acc.adj i (upd (acc.adj i) j a)
          cnt := upd acc.cnt i (upd (acc.cnt i) j (acc.cnt i j + 1))
          rng := if W.cfg.hardDet then acc.rng else fun k => acc.rng (k + 1) }

/-- The adjacency matrix of `route_search_all`. -/
def adjMatrix (W : World) (t : ℚ) : M AdjAcc :=
  (List.range W.nLinks).foldlM (W.adjStep t)
    { adj := fun _ _ => some 0, cnt := fun _ _ => 0, rng := W.rng }

/-- `route_search_all` (uxsim.py:1589–1627). -/
def routeSearchAll (W : World) : M World := do
  let acc ← W.adjMatrix W.now
  let (d, nx) := W.cfg.dijkstra W.nNodes acc.adj
  pure { W with rng := acc.rng, R := { W.R with dist := d, next := nx, record := upd W.R.record W.T (some d) } }

/-- Weight used for destination `k` (uxsim.py:1634–1647). -/
def duoWeight (W : World) (k : NodeId) : ℚ :=
  if ((List.range W.nLinks).map (W.R.pref k)).sum = 0 then 1
  else if W.cfg.gradual then W.cfg.duoUpdateWeight * (W.dt / W.cfg.duoUpdateTime)
  else W.cfg.duoUpdateWeight

/-- `homogeneous_DUO_update` (uxsim.py:1629–1663); exact arithmetic. -/
def duoUpdate (W : World) : World :=
  let p : NodeId → LinkId → ℚ := fun k l =>
    if k < W.nNodes ∧ l < W.nLinks then
      W.R.pref k l * (1 - W.duoWeight k) + W.duoWeight k * W.heteroNew k l
    else W.R.pref k l
  { W with R := { W.R with pref := p } }

/-- Route-choice part of the main loop (uxsim.py:2477–2486). -/
def routeStep (W : World) : M World :=
  if W.cfg.gradual then do
    let W1 ← if W.T % W.cfg.deltatRoute = 0 then W.routeSearchAll else pure W
    pure W1.duoUpdate
  else if W.T % W.cfg.deltatRoute = 0 then do
    let W1 ← W.routeSearchAll
    let W2 := W1.duoUpdate
    W2.living.foldlM (fun W v => W.routePrefUpdate v W.cfg.duoUpdateWeight) W2
  else pure W

/-! ## The time step -/

/-- Body of the main loop of `exec_simulation` for time step `W.T` (uxsim.py:2461–2488). -/
def step (W : World) : M World := do
  let W1 ← (List.range W.nLinks).foldlM linkUpdate W
  let W2 ← (List.range W1.nNodes).foldlM (fun W n => do (← W.generate n).nodeUpdate n) W1
  let W3 ← (List.range W2.nNodes).foldlM transfer W2
  let W4 ← W3.running.foldlM carfollow W3
  let W5 ← W4.living.foldlM vehUpdateLiving W4
  let W6 ← W5.routeStep
  pure { W6 with time := W6.now }

/-- `for W.T in range(start, end+1): ...; if W.T == TSIZE-1: break` (uxsim.py:2455–2498). -/
def runSteps (W : World) : List ℕ → M World
  | [] => .ok W
  | t :: ts => do
    let W1 ← ({ W with T := t } : World).step
    if t + 1 = W1.tsize then pure W1 else runSteps W1 ts

/-- The four ways to call `exec_simulation`. -/
inductive Until
  | toEnd | untilT (t : ℚ) | duration (d : ℚ) | duration2 (d : ℚ)

/-- `end_ts` (uxsim.py:2433–2443). -/
def endTs (W : World) : Until → ℤ
  | .toEnd => W.tsize
  | .untilT t => min (pyInt (W.fl (t / W.dt))) W.tsize
  | .duration d => min (W.T + pyInt (W.fl (d / W.dt))) W.tsize
  | .duration2 d => min (W.T + pyInt (W.fl (d / W.dt)) - 1) W.tsize

/-- `exec_simulation` (uxsim.py:2399–2509); the second component is the return value. The call of
`basic_analysis` at the end and progress printing are modelled in `Analyzer.lean` / not modelled. -/
def exec (W : World) (u : Until) : M (World × ℕ) := do
  let W := if W.finalized then W else W.finalize none
  let e := W.endTs u
  if (W.T : ℤ) = e ∧ e = W.tsize then pure (W, 1)
  else if e < W.T then throw .exception
  else
    let W1 ← W.runSteps ((List.range' W.T (e.toNat + 1 - W.T)))
    let W2 := { W1 with T := W1.T + 1 }
    let W3 := { W2 with time := W2.now }
    pure (W3, if W3.T = W3.tsize then 1 else 0)

/-- `check_simulation_ongoing` (uxsim.py:2511–2522). -/
def ongoing (W : World) : Bool := !W.finalized || decide (W.T + 1 ≤ W.tsize)

end World
end UX

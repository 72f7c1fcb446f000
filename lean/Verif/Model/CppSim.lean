import Verif.Model.CppState
import Verif.Model.Sim

/-!
# One time step of the C++ engine (`uxsim/trafficpp/traffi.cpp`, `uxsim/trafficpp/utils.h`)

The functions follow the C++ text function by function. A call that may throw records the exception
in the `exc` field of the node or link whose task caught it (traffi.cpp:1719–1724, 1766–1780).
Vector accesses that the engine never makes out of range are `getD`/`[]?` without an error value;
undefined behaviour (a null `link` dereferenced, `number_of_lanes = 0`) is outside the model, and the
functions then do nothing.
-/

namespace UX.Cpp

/-- `std::uniform_int_distribution<int>(0, i)` from one raw number. -/
def uniInt (r i : ℕ) : ℕ := r % (i + 1)

/-- A uniform draw of `[0, 1)` from one raw number. -/
def unitDraw (r : ℕ) : ℚ := ((r % 2 ^ 53 : ℕ) : ℚ) / 2 ^ 53

/-- The stream after one draw. -/
def shift (s : ℕ → ℕ) : ℕ → ℕ := fun k => s (k + 1)

/-- The scan of `random_choice`: the first item whose accumulated weight reaches `r`
(utils.h:78–84). -/
def scanPick (fl : ℚ → ℚ) (r : ℚ) : ℚ → List (ℚ × ℕ) → Option ℕ
  | _, [] => none
  | acc, (w, a) :: t => if r ≤ fl (acc + w) then some a else scanPick fl r (fl (acc + w)) t

/-- `random_choice` (utils.h:62–87); `none` is `nullptr`. -/
def randomChoice (fl : ℚ → ℚ) (items : List ℕ) (weights : List ℚ) (rng : ℕ → ℕ) :
    Option ℕ × (ℕ → ℕ) :=
  if items = [] ∨ items.length ≠ weights.length then (none, rng)
  else
    let wsum := weights.foldl (fun s w => fl (s + w)) 0
    if wsum ≤ 0 then (items[uniInt (rng 0) (items.length - 1)]?, shift rng)
    else match scanPick fl (fl (wsum * unitDraw (rng 0))) 0 (weights.zip items) with
      | some a => (some a, shift rng)
      | none => (items.getLast?, shift rng)

/-- The first item of largest weight (traffi.cpp:326–332, 1018–1025). -/
def firstMax : List (ℚ × ℕ) → Option ℕ
  | [] => none
  | p :: ps => some (ps.foldl (fun best q => if best.1 < q.1 then q else best) p).2

/-- `std::swap(xs[i], xs[j])` -/
def swapAt (xs : List ℕ) (i j : ℕ) : List ℕ :=
  (xs.set i (xs.getD j 0)).set j (xs.getD i 0)

/-- The shuffle of `Node::transfer` (traffi.cpp:275–282): `i` runs from `size - 1` down to 1. -/
def fisherYates : (i : ℕ) → List ℕ → (ℕ → ℕ) → List ℕ × (ℕ → ℕ)
  | 0, xs, rng => (xs, rng)
  | i + 1, xs, rng => fisherYates i (swapAt xs (i + 1) (uniInt (rng 0) (i + 1))) (shift rng)

namespace CWorld

/-! ## Link::update -/

/-- The value `set_travel_time` stores at the current time step (traffi.cpp:599–622). -/
def newTt (W : CWorld) (l : ℕ) : ℚ :=
  let L := W.link l
  if W.g.timestep % W.g.ttInterval ≠ 0 then
    if 0 < W.g.timestep then L.ttInst (W.g.timestep - 1) else L.ttInst W.g.timestep
  else if L.vehs ≠ [] then
    let vsum := (L.vehs.map (fun v => (W.veh v).v)).foldl (fun s q => W.g.fl (s + q)) 0
    let avg := W.g.fl (vsum / L.vehs.length)
    if 0 < avg then W.g.fl (L.len / avg) else W.g.fl (L.len / W.g.fl (L.vmax / 100))
  else W.g.fl (L.len / L.vmax)

/-- Refill of one capacity counter (traffi.cpp:550–564). `10e9` is `10000000000`. -/
def refill (W : CWorld) (lanes : ℕ) (cap rem : ℚ) : ℚ :=
  if cap < 10000000000 then
    if rem < W.g.fl (W.g.deltaN * lanes) then W.g.fl (rem + W.g.fl (cap * W.g.deltaT)) else rem
  else 10000000000

/-- `Link::update` (traffi.cpp:542–565). -/
def linkUpdate (W : CWorld) (l : ℕ) : CWorld :=
  W.setL l (fun L => { L with
    ttInst := upd L.ttInst W.g.timestep (W.newTt l)
    arr := if W.g.timestep ≠ 0 then upd L.arr W.g.timestep (L.arr (W.g.timestep - 1)) else L.arr
    dep := if W.g.timestep ≠ 0 then upd L.dep W.g.timestep (L.dep (W.g.timestep - 1)) else L.dep
    capOutRem := W.refill L.lanes L.capOut L.capOutRem
    capInRem := W.refill L.lanes L.capIn L.capInRem })

/-! ## Vehicle::route_next_link_choice -/

/-- The `links_preferred` filter (traffi.cpp:957–971). -/
def preferFilter (W : CWorld) (v : ℕ) (ls : List ℕ) : List ℕ :=
  if ls.filter (fun l => (W.veh v).prefer.contains l) = [] then ls
  else ls.filter (fun l => (W.veh v).prefer.contains l)

/-- The `links_avoid` filter (traffi.cpp:973–988). -/
def avoidFilter (W : CWorld) (v : ℕ) (ls : List ℕ) : List ℕ :=
  ls.filter (fun l => !(W.veh v).avoid.contains l)

/-- The `no_cyclic_routing` filter (traffi.cpp:990–1002). -/
def cyclicFilter (W : CWorld) (v : ℕ) (ls : List ℕ) : List ℕ :=
  if W.g.noCyclic then
    if ls.filter (fun l => !(W.veh v).visited (W.link l).dst) = [] then ls
    else ls.filter (fun l => !(W.veh v).visited (W.link l).dst)
  else ls

/-- The last part of `route_next_link_choice` (traffi.cpp:1010–1031): the draw. -/
def drawLink (W : CWorld) (v : ℕ) (ls : List ℕ) (rng : ℕ → ℕ) : Option ℕ × (ℕ → ℕ) :=
  if W.g.hardDet then
    (firstMax ((ls.map (fun l => W.g.pref (W.veh v).dest l)).zip ls), rng)
  else randomChoice W.g.fl ls (ls.map (fun l => W.g.pref (W.veh v).dest l)) rng

/-- `Vehicle::route_next_link_choice` (traffi.cpp:934–1033): the chosen link (`none` = `nullptr`)
and the rest of the random stream. -/
def chooseNext (W : CWorld) (v : ℕ) (ls : List ℕ) (rng : ℕ → ℕ) :
    Except CErr (Option ℕ × (ℕ → ℕ)) :=
  if ls = [] then .ok (none, rng)
  else if (W.veh v).route ≠ [] then
    match (W.veh v).route[(W.veh v).count]? with
    | none => .error .outOfRange
    | some f => if f ∈ ls then .ok (some f, rng) else .error .invalidArgument
  else
    let o := W.avoidFilter v (W.preferFilter v ls)
    if o = [] then .error .invalidArgument
    else .ok (W.drawLink v (W.cyclicFilter v o) rng)

/-! ## Entering a link -/

/-- The acceptance check of `generate` and `transfer` (traffi.cpp:130–142, 285–297), without the
node capacity. -/
def canEnter (W : CWorld) (l : ℕ) : Bool :=
  (decide ((W.link l).vehs.length < (W.link l).lanes) ||
    match (W.link l).vehs[(W.link l).vehs.length - (W.link l).lanes]? with
    | some u => decide (W.gap l < (W.veh u).x)
    | none => false) &&
  !decide ((W.link l).capInRem < W.g.deltaN)

/-- Lane and leader of a vehicle about to enter `l` (traffi.cpp:168–181, 385–398). -/
def attach (W : CWorld) (v l : ℕ) : CWorld :=
  let q := (W.link l).vehs
  let lane := match q.getLast? with
    | some u => ((W.veh u).lane + 1) % (W.link l).lanes
    | none => 0
  let W1 := W.setV v (fun V => { V with lane := lane, leader := none })
  if (W.link l).lanes ≤ q.length then
    match q[q.length - (W.link l).lanes]? with
    | some u => (W1.setV v (fun V => { V with leader := some u })).setV u
        (fun V => { V with follower := some v })
    | none => W1
  else W1

/-! ## Node::generate -/

/-- Departure of `v`, front of the queue of `n`, onto link `l` (traffi.cpp:148–187). -/
def depart (W : CWorld) (n v l : ℕ) : CWorld :=
  let W1 := W.setN n (fun N => { N with genQ := N.genQ.tail, runBuf := N.runBuf ++ [v] })
  let W2 := W1.setV v (fun V => { V with
    state := .run
    link := some l
    x := 0
    v := (W.link l).vmax
    arrTimeLink := W.now
    visited := upd V.visited (W.link l).src true
    count := V.count + 1 })
  (W2.attach v l).setL l (fun L => { L with
    vehs := L.vehs ++ [v]
    arr := upd L.arr W.g.timestep (W.g.fl (L.arr W.g.timestep + W.g.deltaN))
    capInRem := W.g.fl (L.capInRem - W.g.deltaN) })

/-- The attempt loop of `generate` (traffi.cpp:116–188). -/
def genLoop (n : ℕ) : ℕ → CWorld → CWorld
  | 0, W => W
  | k + 1, W =>
    match (W.node n).genQ with
    | [] => W
    | v :: _ =>
      match W.chooseNext v (W.node n).outLinks (W.node n).rng with
      | .error e => W.setN n (fun N => { N with exc := some e })
      | .ok (o, rng) =>
        let W1 := (W.setN n (fun N => { N with rng := rng })).setV v (fun V => { V with next := o })
        match o with
        | none => W1
        | some l => if W1.canEnter l then genLoop n k (W1.depart n v l) else W1

/-- `Node::generate` (traffi.cpp:105–189). -/
def generate (W : CWorld) (n : ℕ) : CWorld :=
  if (W.node n).genQ = [] ∨ (W.node n).outLinks = [] then W
  else genLoop n ((W.node n).outLinks.map (fun l => (W.link l).lanes)).sum W

/-- `Node::signal_update` (traffi.cpp:194–207). -/
def signalUpdate (W : CWorld) (n : ℕ) : CWorld :=
  let N := W.node n
  let sw := decide (N.sigInt.getD N.sigPhase 0 < N.sigT)
  let ph := if 1 < N.sigInt.length ∧ sw = true then
      (if N.sigInt.length ≤ N.sigPhase + 1 then 0 else N.sigPhase + 1)
    else N.sigPhase
  let t := if 1 < N.sigInt.length then W.g.fl ((if sw then 0 else N.sigT) + W.g.deltaT) else N.sigT
  W.setN n (fun N => { N with sigPhase := ph, sigT := t, sigLog := N.sigLog ++ [ph] })

/-- `Node::flow_capacity_update` (traffi.cpp:226–234). `10e10` is `100000000000`. -/
def flowUpdate (W : CWorld) (n : ℕ) : CWorld :=
  W.setN n (fun N => { N with
    flowRem := if 0 ≤ N.flowCap then
      if N.flowRem < W.g.fl (W.g.deltaN * (if 0 < N.lanes then N.lanes else 1))
        then W.g.fl (N.flowRem + W.g.fl (N.flowCap * W.g.deltaT)) else N.flowRem
    else 100000000000 })

/-- One iteration of the node stage (traffi.cpp:1717–1727). -/
def nodeStage (W : CWorld) (n : ℕ) : CWorld :=
  ((W.generate n).signalUpdate n).flowUpdate n

/-! ## Logging and the end of a trip -/

/-- The statistics part of `log_data` (traffi.cpp:1063–1073). -/
def logStats (W : CWorld) (v : ℕ) : CWorld :=
  match (W.veh v).state, (W.veh v).link with
  | .run, some l => W.setL l (fun L => { L with
      aveV := W.g.fl (L.aveV + (W.veh v).v)
      aveVr := W.g.fl (L.aveVr + W.g.fl ((W.veh v).v / L.vmax))
      stat := W.g.fl (L.stat + 1) })
  | .wait, _ => W.setN (W.veh v).orig (fun N => { N with stat := W.g.fl (N.stat + 1) })
  | _, _ => W

/-- The spacing that `log_data` stores (traffi.cpp:1086–1095). -/
def logSpacing (W : CWorld) (v : ℕ) (snap : Option ℕ) : ℚ :=
  match snap with
  | none => -1
  | some u =>
    if u < v then
      if (W.veh u).state ≠ .ended ∧ (W.veh u).state ≠ .abort
        then W.g.fl ((W.veh u).x - (W.veh v).x) else -1
    else W.g.fl ((W.veh u).xOld - (W.veh v).x)

/-- The entry that `log_data` pushes (traffi.cpp:1080–1107). -/
def logEntry (W : CWorld) (v : ℕ) (snap : Option ℕ) : CLog :=
  if (W.veh v).state = .run then
    { link := (W.veh v).link, x := (W.veh v).x, v := (W.veh v).v, lane := (W.veh v).lane,
      s := W.logSpacing v snap }
  else { link := none, x := -1, v := -1, lane := -1, s := -1 }

/-- The logging part of `log_data` (traffi.cpp:1075–1109). -/
def logPush (W : CWorld) (v : ℕ) (snap : Option ℕ) : CWorld :=
  if W.g.logMode then
    W.setV v (fun V => { V with
      log := V.log ++ [W.logEntry v snap]
      logFirst := if V.log = [] then W.g.timestep else V.logFirst
      logLast := W.g.timestep
      logWait := if V.state = .wait then V.logWait + 1 else V.logWait
      logEnd := if V.state = .ended ∨ V.state = .abort then V.logEnd + 1 else V.logEnd
      eager := V.eager ++ [(W.g.timestep, V.state)] })
  else W

/-- `Vehicle::log_data` (traffi.cpp:1060–1110). -/
def logData (W : CWorld) (v : ℕ) (snap : Option ℕ) : CWorld :=
  (W.logStats v).logPush v snap

/-- `follower->leader = nullptr`, if there is a follower (traffi.cpp:380–382, 912–914). -/
def detach (W : CWorld) (v : ℕ) : CWorld :=
  match (W.veh v).follower with
  | some f => W.setV f (fun V => { V with leader := none })
  | none => W

/-- Index of a travel-time event (traffi.cpp:359–360, 895–896). -/
def eventIdx (W : CWorld) (v : ℕ) : ℕ := (pyInt (W.g.fl ((W.veh v).arrTimeLink / W.g.deltaT))).toNat

/-- `Vehicle::end_trip` (traffi.cpp:886–927) of a vehicle on link `l`. -/
def endTripOn (W : CWorld) (v l : ℕ) : CWorld :=
  let W1 := W.setL l (fun L => { L with
    trips := W.g.fl (L.trips + 1)
    dep := upd L.dep W.g.timestep (W.g.fl (L.dep W.g.timestep + W.g.deltaN))
    ttEvents := L.ttEvents ++ [(W.eventIdx v,
      W.g.fl (W.g.fl ((W.g.timestep + 1 : ℕ) * W.g.deltaT) - (W.veh v).arrTimeLink))]
    ended := L.ended ++ [v]
    vehs := L.vehs.tail })
  let W2 := W1.detach v
  let W3 := W2.setV v (fun V => { V with
    state := if V.flagAbort then .abort else .ended
    arrTimeLink := W.now
    arrivalTime := if V.flagAbort then -1 else W.now
    travelTime := if V.flagAbort then -1 else W.g.fl (W.now - V.depTime)
    link := none
    x := 0
    flagWait := false })
  W3.logData v none

/-- `Vehicle::end_trip` (traffi.cpp:886–927). -/
def endTrip (W : CWorld) (v : ℕ) : CWorld :=
  match (W.veh v).link with
  | none => W
  | some l => W.endTripOn v l

/-! ## Node::transfer -/

/-- Insertion into a list of ids in ascending order. -/
def sortIds (xs : List ℕ) : List ℕ := xs.insertionSort (· ≤ ·)

/-- The first loop of `transfer` (traffi.cpp:244–253): the arrival buffers of the in-links, ordered
by vehicle id. -/
def collect (W : CWorld) (n : ℕ) : CWorld :=
  let inc := (W.node n).incoming ++ (W.node n).inLinks.flatMap (fun a => (W.link a).arrived)
  let W1 := (W.node n).inLinks.foldl (fun W a => W.setL a (fun L => { L with arrived := [] })) W
  W1.setN n (fun N => { N with incoming := sortIds inc })

/-- `outlinks_expanded` before the shuffle (traffi.cpp:260–273). -/
def slots (W : CWorld) (n : ℕ) : List ℕ :=
  (uniqFirst ((W.node n).incoming.filterMap (fun v => (W.veh v).next))).flatMap
    (fun l => List.replicate (W.link l).lanes l)

/-- May `v` move to `b` now? (traffi.cpp:311–314) -/
def mayMove (W : CWorld) (n b v : ℕ) : Bool :=
  match (W.veh v).link with
  | none => false
  | some a => decide ((W.veh v).next = some b) && decide ((W.link a).vehs.head? = some v) &&
      decide (W.g.deltaN ≤ (W.link a).capOutRem) &&
      (decide ((W.node n).sigPhase ∈ (W.link a).group) || decide ((W.node n).sigInt.length ≤ 1))

/-- `merge_priority` of the link a vehicle is on. -/
def priOf (W : CWorld) (v : ℕ) : ℚ :=
  match (W.veh v).link with | some a => (W.link a).mergePri | none => 1

/-- The vehicle that merges (traffi.cpp:323–338). -/
def pickMerge (W : CWorld) (n : ℕ) (vs : List ℕ) : Option ℕ × CWorld :=
  if W.g.hardDet then (firstMax ((vs.map W.priOf).zip vs), W)
  else
    let (o, rng) := randomChoice W.g.fl vs (vs.map W.priOf) (W.node n).rng
    (o, W.setN n (fun N => { N with rng := rng }))

/-- `if (front->flag_waiting_for_trip_end) front->end_trip()` (traffi.cpp:421–424, 435–436);
also whether it did. -/
def endFront (W : CWorld) (l : ℕ) : CWorld × Bool :=
  match (W.link l).vehs with
  | [] => (W, false)
  | h :: _ => if (W.veh h).flagWait then (W.endTrip h, true) else (W, false)

/-- First part of moving `v` from `a` to `b` (traffi.cpp:343–383): counters, capacities, travel-time
event, queue of `a`, follower. -/
def leave (W : CWorld) (n v a b : ℕ) : CWorld :=
  let W1 := W.setL a (fun L => { L with
    capOutRem := W.g.fl (L.capOutRem - W.g.deltaN)
    dep := upd L.dep W.g.timestep (W.g.fl (L.dep W.g.timestep + W.g.deltaN))
    ttEvents := L.ttEvents ++ [(W.eventIdx v, W.g.fl (W.now - (W.veh v).arrTimeLink))]
    vehs := L.vehs.tail })
  let W2 := W1.setL b (fun L => { L with
    capInRem := W.g.fl (L.capInRem - W.g.deltaN)
    arr := upd L.arr W.g.timestep (W.g.fl (L.arr W.g.timestep + W.g.deltaN)) })
  let W3 := if 0 ≤ (W.node n).flowCap
    then W2.setN n (fun N => { N with flowRem := W.g.fl (N.flowRem - W.g.deltaN) }) else W2
  (W3.detach v).setV v (fun V => { V with
    arrTimeLink := W.now
    link := some b
    x := 0
    visited := upd V.visited (W.link b).src true
    count := V.count + 1
    follower := none })

/-- Position on the new link (traffi.cpp:400–416). -/
def carry (W : CWorld) (v a b : ℕ) : ℚ :=
  let x0 := W.g.fl (W.g.fl ((W.veh v).moveRem * (W.link b).vmax) / (W.link a).vmax)
  let x1 := match (W.veh v).leader with
    | some u =>
      let c := W.g.fl ((W.veh u).xOld - W.gap b)
      let c := if c < (W.veh v).x then (W.veh v).x else c
      if c < x0 then c else x0
    | none => x0
  let x2 := if (W.link b).len ≤ x1 then (W.link b).len else x1
  if x2 < 0 then 0 else x2

/-- `x = x_next_mr; v += x / delta_t; move_remain = 0` (traffi.cpp:417–419). -/
def place (W : CWorld) (v : ℕ) (q : ℚ) : CWorld :=
  W.setV v (fun V => { V with x := q, v := W.g.fl (V.v + W.g.fl (q / W.g.deltaT)), moveRem := 0 })

/-- Transfer of `v` from `a` to `b` at node `n` (traffi.cpp:343–429). -/
def moveVeh (W : CWorld) (n v a b : ℕ) : CWorld :=
  let W2 := (W.leave n v a b).attach v b
  let W3 := W2.place v (W2.carry v a b)
  let W4 := (W3.endFront a).1
  (W4.setL b (fun L => { L with vehs := L.vehs ++ [v] })).setN n
    (fun N => { N with incoming := N.incoming.filter (· ≠ v) })

/-- One iteration over `outlinks_expanded` (traffi.cpp:284–430). -/
def transferOne (n : ℕ) (W : CWorld) (b : ℕ) : CWorld :=
  if W.canEnter b && !decide ((W.node n).flowRem < W.g.deltaN) then
    match (W.node n).incoming.filter (W.mayMove n b) with
    | [] => W
    | v0 :: vs =>
      match W.pickMerge n (v0 :: vs) with
      | (none, W1) => W1
      | (some v, W1) =>
        match (W1.veh v).link with
        | none => W1
        | some a => W1.moveVeh n v a b
  else W

/-- The loop over lanes of the last clean-up (traffi.cpp:434–440). -/
def endFronts (l : ℕ) : ℕ → CWorld → CWorld
  | 0, W => W
  | k + 1, W => if (W.endFront l).2 then endFronts l k (W.endFront l).1 else W

/-- The order in which `transfer` serves the slots: shuffled unless `hard_deterministic_mode`
(traffi.cpp:275–282). -/
def shuffleSlots (W : CWorld) (n : ℕ) : List ℕ × CWorld :=
  if W.g.hardDet then (W.slots n, W)
  else
    let (p, rng) := fisherYates ((W.slots n).length - 1) (W.slots n) (W.node n).rng
    (p, W.setN n (fun N => { N with rng := rng }))

/-- `Node::transfer` (traffi.cpp:239–445). -/
def transfer (W : CWorld) (n : ℕ) : CWorld :=
  let (order, W1) := (W.collect n).shuffleSlots n
  let W2 := order.foldl (transferOne n) W1
  let W3 := (W2.node n).inLinks.foldl (fun W a => endFronts a (W.link a).lanes W) W2
  W3.setN n (fun N => { N with incoming := [] })

/-! ## Vehicle::car_follow_newell -/

/-- `x_next` before the link end is taken into account (traffi.cpp:799–816). -/
def followPos (W : CWorld) (v l : ℕ) : ℚ :=
  let x0 := W.g.fl ((W.veh v).x + W.g.fl ((W.link l).vmax * W.g.deltaT))
  let x1 := match (W.veh v).leader with
    | some u =>
      let c := W.g.fl ((W.veh u).x - W.gap l)
      let c := if c < (W.veh v).x then (W.veh v).x else c
      if c < x0 then c else x0
    | none => x0
  if x1 < (W.veh v).x then (W.veh v).x else x1

/-- `Vehicle::car_follow_newell` (traffi.cpp:798–823). -/
def carFollow (W : CWorld) (v : ℕ) : CWorld :=
  match (W.veh v).link with
  | none => W
  | some l =>
    if (W.link l).len < W.followPos v l then
      W.setV v (fun V => { V with
        moveRem := W.g.fl (W.followPos v l - (W.link l).len), xNext := (W.link l).len })
    else W.setV v (fun V => { V with xNext := W.followPos v l })

/-- The car-following pass of one link (traffi.cpp:1747–1752). -/
def followPass (W : CWorld) (l : ℕ) : CWorld := (W.link l).vehs.foldl carFollow W

/-! ## Vehicle::update -/

/-- Movement inside the link (traffi.cpp:850–854). -/
def advance (W : CWorld) (v : ℕ) : CWorld :=
  W.setV v (fun V => { V with
    v := W.g.fl (W.g.fl (V.xNext - V.x) / W.g.deltaT)
    xOld := V.x
    x := V.xNext
    dist := W.g.fl (V.dist + W.g.fl (V.xNext - V.x)) })

/-- `if (link->vehicles.front() == this) end_trip();` after setting the flag
(traffi.cpp:860–863, 868–871). -/
def waitEnd (W : CWorld) (v l : ℕ) : CWorld :=
  let W1 := W.setV v (fun V => { V with flagWait := true })
  if (W1.link l).vehs.head? = some v then W1.endTrip v else W1

/-- Request for a transfer at the end of link `l` (traffi.cpp:873–876). -/
def request (W : CWorld) (v l : ℕ) : CWorld :=
  match W.chooseNext v (W.node (W.link l).dst).outLinks (W.link l).rng with
  | .error e => W.setL l (fun L => { L with exc := some e })
  | .ok (o, rng) =>
    (W.setV v (fun V => { V with next := o })).setL l
      (fun L => { L with rng := rng, arrived := L.arrived ++ [v] })

/-- At the end of link `l` (traffi.cpp:856–878). -/
def atEnd (W : CWorld) (v l : ℕ) : CWorld :=
  if (W.link l).dst = (W.veh v).dest then W.waitEnd v l
  else if (W.node (W.link l).dst).outLinks = [] ∧ (W.veh v).tripAbort = true then
    (W.setV v (fun V => { V with flagAbort := true, next := none })).waitEnd v l
  else W.request v l

/-- `Vehicle::update` (traffi.cpp:833–881). -/
def vehUpdate (W : CWorld) (v : ℕ) (snap : Option ℕ) : CWorld :=
  let W1 := W.logData v snap
  match (W1.veh v).state with
  | .home =>
    if (W1.veh v).depTime ≤ W1.now then
      (W1.setV v (fun V => { V with state := .wait })).setN (W1.veh v).orig
        (fun N => { N with genQ := N.genQ ++ [v] })
    else W1
  | .run =>
    let W2 := W1.advance v
    match (W2.veh v).link with
    | none => W2
    | some l =>
      if |W2.g.fl ((W2.veh v).x - (W2.link l).len)| < 1 / 1000000000 then W2.atEnd v l else W2
  | _ => W1

/-- The vehicles of a queue snapshot with the vehicle `lanes` places ahead (traffi.cpp:1769–1775). -/
def snapPairs (lanes : ℕ) (q : List ℕ) : List (ℕ × Option ℕ) :=
  (List.range q.length).map (fun i => (q.getD i 0, if lanes ≤ i then q[i - lanes]? else none))

/-- One vehicle of the RUN pass of link `l`: skipped once an exception was thrown. -/
def runVeh (l : ℕ) (W : CWorld) (p : ℕ × Option ℕ) : CWorld :=
  if (W.link l).exc = none then W.vehUpdate p.1 p.2 else W

/-- The RUN pass of one link (traffi.cpp:1764–1781). -/
def runPass (W : CWorld) (l : ℕ) : CWorld :=
  (snapPairs (W.link l).lanes (W.link l).vehs).foldl (runVeh l) W

/-- The WAIT pass of one node (traffi.cpp:1790–1794). -/
def waitPass (W : CWorld) (n : ℕ) : CWorld :=
  (W.node n).genQ.foldl (fun W v => W.vehUpdate v none) W

/-! ## Registries -/

/-- Reconciliation of `vehicles_living` / `vehicles_running` (traffi.cpp:1816–1830). -/
def reconcile (W : CWorld) : CWorld :=
  let ins := (List.range W.g.nNodes).flatMap (fun n => (W.node n).runBuf)
  let del := (List.range W.g.nLinks).flatMap (fun l => (W.link l).ended)
  { W with
    g := { W.g with
      running := fun v => (W.g.running v || ins.contains v) && !del.contains v
      living := fun v => W.g.living v && !del.contains v }
    node := fun n => if n < W.g.nNodes then { W.node n with runBuf := [] } else W.node n
    link := fun l => if l < W.g.nLinks then { W.link l with ended := [] } else W.link l }

/-! ## Route choice -/

/-- The toll that counts for route choice now (traffi.cpp:1286–1289). -/
def penaltyNow (W : CWorld) (l : ℕ) : ℚ :=
  match (W.link l).toll[W.g.timestep]? with
  | some q => q
  | none => (W.link l).penalty

/-- The cost of link `l` for the next route search (traffi.cpp:1281–1296). -/
def linkCost (W : CWorld) (l : ℕ) : ℚ :=
  let t0 := (W.link l).ttInst W.g.timestep
  let tt := if t0 ≤ 0 then W.g.fl ((W.link l).len / (W.link l).vmax) else t0
  if W.g.hardDet then W.g.fl (tt + W.penaltyNow l)
  else W.g.fl (W.g.fl (tt * W.g.fl (1 + W.g.fl (W.g.noise * unitDraw ((W.link l).rng 0)))) +
    W.penaltyNow l)

/-- Accumulator of `update_adj_time_matrix`: `adj_mat_time` and `adj_mat_link_count`. -/
structure CAdj where
  adj : ℕ → ℕ → Option ℚ
  cnt : ℕ → ℕ → ℕ

/-- One link of `update_adj_time_matrix` (traffi.cpp:1279–1304). -/
def adjStep (W : CWorld) (acc : CAdj) (l : ℕ) : CAdj :=
  let i := (W.link l).src
  let j := (W.link l).dst
  let n : ℚ := acc.cnt i j
  let a := (acc.adj i j).map (fun a =>
    W.g.fl (W.g.fl (W.g.fl (a * n) / (n + 1)) + W.g.fl (W.linkCost l / (n + 1))))
  let a := if (W.link l).capIn = 0 then none else a
  { adj := upd acc.adj i (upd (acc.adj i) j a)
    cnt := upd acc.cnt i (upd (acc.cnt i) j (acc.cnt i j + 1)) }

/-- `update_adj_time_matrix` (traffi.cpp:1267–1306); cells without a link stay 0
(traffi.cpp:1253–1259, 1274–1277). One draw per link outside `hard_deterministic_mode`. -/
def updateAdj (W : CWorld) : CWorld :=
  let acc := (List.range W.g.nLinks).foldl W.adjStep { adj := fun _ _ => some 0, cnt := fun _ _ => 0 }
  { W with
    g := { W.g with adj := acc.adj }
    link := if W.g.hardDet then W.link
      else fun l => if l < W.g.nLinks then { W.link l with rng := shift (W.link l).rng } else W.link l }

/-- State of one run of Dijkstra's algorithm (traffi.cpp:1353–1363): tentative distances, next hops,
`visited` and the priority queue. -/
structure CDij where
  dist : ℕ → Option ℚ
  next : ℕ → Option ℕ
  seen : ℕ → Bool
  pq : List (ℚ × ℕ)

/-- The order of `std::priority_queue<pair<double,int>, …, greater>`: smallest pair on top. -/
def pairLe (p q : ℚ × ℕ) : Bool := decide (p.1 < q.1 ∨ (p.1 = q.1 ∧ p.2 ≤ q.2))

/-- `top()`: the smallest pair. -/
def pqTop : List (ℚ × ℕ) → Option (ℚ × ℕ)
  | [] => none
  | p :: ps => some (ps.foldl (fun b q => if pairLe b q then b else q) p)

/-- Relaxation of the edge `current → j` (traffi.cpp:1374–1380). -/
def relax (fl : ℚ → ℚ) (start cur : ℕ) (dcur : ℚ) (D : CDij) (e : ℕ × ℚ) : CDij :=
  let nd := fl (dcur + e.2)
  if (match D.dist e.1 with | none => true | some d => decide (nd < d)) then
    { D with
      dist := upd D.dist e.1 (some nd)
      next := upd D.next e.1 (if cur = start then some e.1 else D.next cur)
      pq := (nd, e.1) :: D.pq }
  else D

/-- `rsa_adj_list[i]`: the positive finite entries of row `i`. (An infinite entry is in the C++ list,
but `new_dist < dist` is then false, traffi.cpp:1330–1334, 1375.) -/
def adjRow (n : ℕ) (adj : ℕ → ℕ → Option ℚ) (i : ℕ) : List (ℕ × ℚ) :=
  (List.range n).filterMap (fun j => match adj i j with
    | some w => if 0 < w then some (j, w) else none
    | none => none)

/-- The loop of Dijkstra's algorithm from `start` (traffi.cpp:1364–1382), `fuel` bounding the number
of `pop`s (`C77` shows that the bound used below is never reached). -/
def dijLoop (fl : ℚ → ℚ) (n : ℕ) (adj : ℕ → ℕ → Option ℚ) (start : ℕ) : ℕ → CDij → CDij
  | 0, D => D
  | k + 1, D =>
    match pqTop D.pq with
    | none => D
    | some p =>
      let D1 := { D with pq := D.pq.erase p }
      if D1.seen p.2 then dijLoop fl n adj start k D1
      else
        let D2 := { D1 with seen := upd D1.seen p.2 true }
        dijLoop fl n adj start k
          ((adjRow n adj p.2).foldl (relax fl start p.2 ((D2.dist p.2).getD 0)) D2)

/-- `route_search_all` for one source (traffi.cpp:1356–1383). -/
def dijkstra (fl : ℚ → ℚ) (n : ℕ) (adj : ℕ → ℕ → Option ℚ) (start : ℕ) : CDij :=
  dijLoop fl n adj start (n * n + 1)
    { dist := upd (fun _ => none) start (some 0)
      next := upd (fun _ => none) start (some start)
      seen := fun _ => false
      pq := [(0, start)] }

/-- `route_search_all` and the copies to `route_dist`, `route_next` (traffi.cpp:1317–1385,
1848–1850). `route_dist_record` is not modelled. -/
def searchAll (W : CWorld) : CWorld :=
  { W with g := { W.g with
      dist := fun i => (dijkstra W.g.fl W.g.nNodes W.g.adj i).dist
      next := fun i => (dijkstra W.g.fl W.g.nNodes W.g.adj i).next } }

/-- `route_choice_duo` / `route_choice_duo_gradual` with update weight `w0` (traffi.cpp:1486–1553).
The loop over destinations is over disjoint rows. -/
def duoUpdate (W : CWorld) (w0 : ℚ) : CWorld :=
  let on : ℕ → ℕ → Bool := fun k l => decide (W.g.next (W.link l).src k = some (W.link l).dst)
  let w : ℕ → ℚ := fun k => if W.g.active k then w0 else 1
  { W with g := { W.g with
      pref := fun k l => if k < W.g.nNodes ∧ l < W.g.nLinks then
          if on k l then W.g.fl (W.g.fl (W.g.fl (1 - w k) * W.g.pref k l) + w k)
          else W.g.fl (W.g.fl (1 - w k) * W.g.pref k l)
        else W.g.pref k l
      active := fun k => W.g.active k ||
        (decide (k < W.g.nNodes) && (List.range W.g.nLinks).any (on k)) } }

/-- Route-choice part of the main loop (traffi.cpp:1832–1854). -/
def routeStep (W : CWorld) : CWorld :=
  if W.g.gradual then
    (if 0 < W.g.routeSteps ∧ W.g.timestep % W.g.routeSteps = 0 then W.updateAdj.searchAll else W
      ).duoUpdate (W.g.fl (W.g.duoWeight * W.g.fl (W.g.deltaT / W.g.duoTime)))
  else if 0 < W.g.routeSteps ∧ W.g.timestep % W.g.routeSteps = 0 then
    (W.updateAdj.searchAll).duoUpdate W.g.duoWeight
  else W

/-! ## The time step -/

/-- The order in which the iterations of the five parallel loops of one time step take effect. One
thread processes them by ascending id (`seqSched`). -/
structure Sched where
  update : List ℕ
  gen : List ℕ
  follow : List ℕ
  run : List ℕ
  wait : List ℕ

/-- The order of a single thread. -/
def seqSched (W : CWorld) : Sched :=
  { update := List.range W.g.nLinks, gen := List.range W.g.nNodes, follow := List.range W.g.nLinks,
    run := List.range W.g.nLinks, wait := List.range W.g.nNodes }

/-- `gen_exc`, `run_exc` are local to one iteration of the main loop (traffi.cpp:1702–1703). -/
def clearExc (W : CWorld) : CWorld :=
  { W with node := fun n => { W.node n with exc := none }, link := fun l => { W.link l with exc := none } }

/-- The parallel region of one time step (traffi.cpp:1704–1795). -/
def region (σ : Sched) (W : CWorld) : CWorld :=
  let W1 := σ.update.foldl linkUpdate W
  let W2 := σ.gen.foldl nodeStage W1
  let W3 := (List.range W2.g.nNodes).foldl transfer W2
  let W4 := σ.follow.foldl followPass W3
  let W5 := σ.run.foldl runPass W4
  σ.wait.foldl waitPass W5

/-- The exception that is rethrown after the region (traffi.cpp:1797–1798): generate before RUN, the
smallest id first. -/
def firstExc (W : CWorld) : Option CErr :=
  match (List.range W.g.nNodes).findSome? (fun n => (W.node n).exc) with
  | some e => some e
  | none => (List.range W.g.nLinks).findSome? (fun l => (W.link l).exc)

/-- One time step (traffi.cpp:1682–1859), `home` being `departure_buckets[timestep]`; the second
component is the exception that leaves `main_loop`. -/
def stepWith (σ : Sched) (home : List ℕ) (W : CWorld) : CWorld × Option CErr :=
  let W1 := region σ W.clearExc
  match W1.firstExc with
  | some e => (W1, some e)
  | none =>
    let W2 := home.foldl (fun W v => W.vehUpdate v none) W1
    (W2.reconcile.routeStep, none)

/-- `while (ts0*delta_t < departure_time) ts0++` (traffi.cpp:1672), cut off where `ts0` reaches
`total_timesteps` and its value no longer matters. -/
def bumpStep (W : CWorld) (dep : ℚ) : ℕ → ℤ → ℤ
  | 0, t => t
  | k + 1, t => if W.g.fl (t * W.g.deltaT) < dep then bumpStep W dep k (t + 1) else t

/-- First departing time step of a vehicle (traffi.cpp:1671–1673). -/
def departStep (W : CWorld) (start : ℕ) (dep : ℚ) : ℕ :=
  (max (bumpStep W dep (W.g.totalSteps + 1 - (pyInt (W.g.fl (dep / W.g.deltaT))).toNat +
    (-(pyInt (W.g.fl (dep / W.g.deltaT)))).toNat) (pyInt (W.g.fl (dep / W.g.deltaT)))) start).toNat

/-- `departure_buckets[ts]` (traffi.cpp:1668–1676). -/
def bucket (W : CWorld) (start ts : ℕ) : List ℕ :=
  (List.range W.g.nVehs).filter (fun v =>
    decide ((W.veh v).state = .home) && decide (W.departStep start (W.veh v).depTime = ts))

/-- The loop of `main_loop` (traffi.cpp:1682–1860); `sched` is the schedule of each time step. -/
def loopFrom (sched : ℕ → CWorld → Sched) (buckets : ℕ → List ℕ) :
    ℕ → CWorld → CWorld × Option CErr
  | 0, W => (W, none)
  | k + 1, W =>
    match stepWith (sched W.g.timestep W) (buckets W.g.timestep) W with
    | (W1, some e) => (W1, some e)
    | (W1, none) => loopFrom sched buckets k { W1 with g := { W1.g with timestep := W.g.timestep + 1 } }

/-- `main_loop` up to time step `endTs` (exclusive, traffi.cpp:1642–1866): the last time step is
capped by `total_timesteps`. -/
def mainLoop (sched : ℕ → CWorld → Sched) (W : CWorld) (endTs : ℕ) : CWorld × Option CErr :=
  loopFrom sched (W.bucket W.g.timestep) (min endTs W.g.totalSteps - W.g.timestep) W

end CWorld
end UX.Cpp

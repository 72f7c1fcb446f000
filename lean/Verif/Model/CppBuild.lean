import Verif.Model.CppSim

/-!
# Building a world of the C++ engine and running it in chunks

Names are resolved to ids before the calls modelled here: a name that is not registered makes the
engine store a null pointer (`nodes_map[name]`, traffi.cpp:512–513, 758–759), which is outside the
model. Every entity's random stream (`make_entity_rng`) is an argument.
-/

namespace UX.Cpp
namespace CWorld

/-- `World::World` (traffi.cpp:1165–1216) and the assignments of `_ensure_cpp_world`
(uxsim_cpp_wrapper.py:894–898). -/
def empty (fl : ℚ → ℚ) (tMax deltaN tau duoTime duoWeight noise : ℚ)
    (hardDet gradual noCyclic adjustCap logMode : Bool) (ttInterval : ℕ) : CWorld :=
  { g :=
      { fl := fl, deltaN := deltaN, tau := tau, deltaT := fl (tau * deltaN), duoTime := duoTime
        duoWeight := duoWeight, noise := noise, hardDet := hardDet, gradual := gradual
        noCyclic := noCyclic, adjustCap := adjustCap, ttInterval := ttInterval, logMode := logMode
        totalSteps := (pyInt (fl (tMax / fl (tau * deltaN)))).toNat
        routeSteps := if (pyInt (fl (duoTime / fl (tau * deltaN)))).toNat = 0 then 1
          else (pyInt (fl (duoTime / fl (tau * deltaN)))).toNat
        nNodes := 0, nLinks := 0, nVehs := 0, timestep := 0, pref := fun _ _ => 0
        active := fun _ => false, adj := fun _ _ => some 0, next := fun _ _ => none
        dist := fun _ _ => none, living := fun _ => false, running := fun _ => false }
    node := fun _ =>
      { inLinks := [], outLinks := [], incoming := [], genQ := [], runBuf := [], sigInt := []
        sigOff := 0, sigT := 0, sigPhase := 0, sigLog := [], flowCap := -1, flowRem := 0, lanes := 0
        stat := 0, rng := fun _ => 0, exc := none }
    link := fun _ =>
      { src := 0, dst := 0, len := 0, lanes := 0, vmax := 0, kappa := 0, delta := 0, deltaLane := 0
        tau := 0, cap := 0, bws := 0, mergePri := 0, capOut := 0, capOutRem := 0, capIn := 0
        capInRem := 0, group := [], penalty := 0, toll := [], vehs := [], arr := fun _ => 0
        dep := fun _ => 0, ttReal := [], ttEvents := [], ttApplied := 0, ttInst := fun _ => 0
        arrived := [], ended := [], aveV := 0, aveVr := 0, stat := 0, trips := 0, rng := fun _ => 0
        exc := none }
    veh := fun _ =>
      { depTime := 0, orig := 0, dest := 0, link := none, arrivalTime := -1, travelTime := -1
        dist := 0, x := 0, xNext := 0, xOld := 0, v := 0, moveRem := 0, lane := 0, leader := none
        follower := none, state := .home, flagWait := false, flagAbort := false, tripAbort := true
        arrTimeLink := 0, next := none, prefer := [], avoid := [], route := []
        visited := fun _ => false, count := 0, log := [], logFirst := -1, logLast := -1, logWait := 0
        logEnd := 0, eager := [] } }

/-- The search for the initial signal phase (traffi.cpp:75–86); `none` if it does not end within
`fuel` rounds. -/
def sigLoop (fl : ℚ → ℚ) (ints : List ℚ) : ℕ → ℕ → ℚ → Option (ℕ × ℚ)
  | 0, _, _ => none
  | k + 1, i, off =>
    if off < ints.getD i 0 then some (i, off)
    else sigLoop fl ints k (if ints.length ≤ i + 1 then 0 else i + 1) (fl (off - ints.getD i 0))

/-- Initial signal phase and `signal_t` (traffi.cpp:66–87). -/
def sigInit (fl : ℚ → ℚ) (ints : List ℚ) (off : ℚ) (fuel : ℕ) : Option (ℕ × ℚ) :=
  if 1 < ints.length ∨ (ints.length = 1 ∧ ints.getD 0 0 ≠ 0) then
    sigLoop fl ints fuel 0 (fl (ints.foldl (fun s q => fl (s + q)) 0 - off))
  else some (0, 0)

/-- `(int)std::ceil(flow_capacity / 0.8)` (traffi.cpp:95, 221). -/
def autoLanes (fl : ℚ → ℚ) (cap : ℚ) : ℤ := ⌈fl (cap / fl (4 / 5))⌉

/-- `Node::Node` (traffi.cpp:47–100), `p` being the result of the search for the signal phase. -/
def addNodeWith (W : CWorld) (p : ℕ × ℚ) (ints : List ℚ) (off cap : ℚ) (lanes : ℤ) (rng : ℕ → ℕ) :
    CWorld :=
  { W with
    g := { W.g with nNodes := W.g.nNodes + 1 }
    node := upd W.node W.g.nNodes
      { inLinks := [], outLinks := [], incoming := [], genQ := [], runBuf := [], sigInt := ints
        sigOff := off, sigT := p.2, sigPhase := p.1, sigLog := []
        flowCap := if 0 ≤ cap then cap else -1
        flowRem := if 0 ≤ cap then W.g.fl (W.g.fl (cap * W.g.tau) * W.g.deltaN) else 100000000000
        lanes := if 0 ≤ cap ∧ lanes ≤ 0 then autoLanes W.g.fl cap else lanes
        stat := 0, rng := rng, exc := none } }

/-- `Node::Node`; `none` if the constructor does not return within `fuel` rounds of its loop. -/
def addNode (W : CWorld) (ints : List ℚ) (off cap : ℚ) (lanes : ℤ) (rng : ℕ → ℕ) (fuel : ℕ) :
    Option CWorld :=
  (sigInit W.g.fl ints off fuel).map (fun p => W.addNodeWith p ints off cap lanes rng)

/-- Arguments of `Link::Link` other than the nodes (traffi.cpp:465–477). -/
structure LinkArgs where
  vmax : ℚ
  kappa : ℚ
  len : ℚ
  lanes : ℕ
  mergePri : ℚ
  capOut : ℚ
  capIn : ℚ
  group : List ℕ
  rng : ℕ → ℕ

/-- `capacity = vmax*backward_wave_speed*kappa/(vmax+backward_wave_speed)` (traffi.cpp:499, 574,
583). -/
def capOf (fl : ℚ → ℚ) (vmax bws kappa : ℚ) : ℚ := fl (fl (fl (vmax * bws) * kappa) / fl (vmax + bws))

/-- The object `Link::Link` makes (traffi.cpp:465–537), without its entries in node lists. -/
def newLink (W : CWorld) (src dst : ℕ) (a : LinkArgs) : CLink :=
  let fl := W.g.fl
  let kappa := if a.kappa ≤ 0 then fl (1 / 5) else a.kappa
  let tau := fl (W.g.tau / a.lanes)
  let bws := fl (fl (1 / tau) / kappa)
  let cap := capOf fl a.vmax bws kappa
  let capOut := if a.capOut < 0 then fl (cap * 2) else a.capOut
  let capIn := if a.capIn < 0 then fl (cap * 2) else a.capIn
  { src := src, dst := dst, len := a.len, lanes := a.lanes, vmax := a.vmax, kappa := kappa
    delta := fl (1 / kappa), deltaLane := fl (fl (1 / kappa) * a.lanes), tau := tau, cap := cap
    bws := bws, mergePri := a.mergePri, capOut := capOut, capOutRem := fl (capOut * W.g.deltaT)
    capIn := capIn
    capInRem := if a.capIn < 0 then fl (cap * 2) else fl (capIn * W.g.deltaT)
    group := a.group, penalty := 0, toll := [], vehs := [], arr := fun _ => 0, dep := fun _ => 0
    ttReal := List.replicate W.g.totalSteps (fl (a.len / a.vmax)), ttEvents := [], ttApplied := 0
    ttInst := fun _ => 0, arrived := [], ended := [], aveV := 0, aveVr := 0, stat := 0, trips := 0
    rng := a.rng, exc := none }

/-- `Link::Link` (traffi.cpp:465–537). -/
def addLink (W : CWorld) (src dst : ℕ) (a : LinkArgs) : CWorld :=
  let W1 : CWorld :=
    { W with
      g := { W.g with nLinks := W.g.nLinks + 1 }
      link := upd W.link W.g.nLinks (W.newLink src dst a) }
  (W1.setN src (fun N => { N with outLinks := N.outLinks ++ [W.g.nLinks] })).setN dst
    (fun N => { N with inLinks := N.inLinks ++ [W.g.nLinks] })

/-- The object `Vehicle::Vehicle` makes (traffi.cpp:723–788). -/
def newVeh (dep : ℚ) (orig dest : ℕ) (prefer : List ℕ) : CVeh :=
  { depTime := dep, orig := orig, dest := dest, link := none, arrivalTime := -1, travelTime := -1
    dist := 0, x := 0, xNext := 0, xOld := 0, v := 0, moveRem := 0, lane := 0, leader := none
    follower := none, state := .home, flagWait := false, flagAbort := false, tripAbort := true
    arrTimeLink := 0, next := none, prefer := prefer, avoid := [], route := []
    visited := fun _ => false, count := 0, log := [], logFirst := -1, logLast := -1, logWait := 0
    logEnd := 0, eager := [] }

/-- `Vehicle::Vehicle` (traffi.cpp:723–788). -/
def addVehicle (W : CWorld) (dep : ℚ) (orig dest : ℕ) (prefer : List ℕ) : CWorld :=
  { W with
    g := { W.g with nVehs := W.g.nVehs + 1, living := upd W.g.living W.g.nVehs true }
    veh := upd W.veh W.g.nVehs (newVeh dep orig dest prefer) }

/-- The inner loop of `add_demand` (traffi.cpp:1924–1939) for time step `ts`. `fuel` bounds the
number of rounds; the loop does not end if `delta_n = 0`. -/
def demandWhile (orig dest : ℕ) (prefer : List ℕ) (ts : ℤ) : ℕ → CWorld × ℚ → Option (CWorld × ℚ)
  | 0, _ => none
  | k + 1, (W, d) =>
    if W.g.deltaN ≤ d then
      demandWhile orig dest prefer ts k
        (W.addVehicle (W.g.fl (ts * W.g.deltaT)) orig dest prefer, W.g.fl (d - W.g.deltaN))
    else some (W, d)

/-- The outer loop of `add_demand` over `k` time steps from `ts` (traffi.cpp:1922–1940). -/
def demandFor (orig dest : ℕ) (prefer : List ℕ) (flow : ℚ) (fuel : ℕ) :
    ℕ → ℤ → CWorld × ℚ → Option (CWorld × ℚ)
  | 0, _, p => some p
  | k + 1, ts, (W, d) =>
    (demandWhile orig dest prefer ts fuel (W, W.g.fl (d + W.g.fl (flow * W.g.deltaT)))).bind
      (demandFor orig dest prefer flow fuel k (ts + 1))

/-- `add_demand` (traffi.cpp:1910–1941). -/
def addDemand (W : CWorld) (orig dest : ℕ) (t0 t1 flow : ℚ) (prefer : List ℕ) (fuel : ℕ) :
    Option CWorld :=
  (demandFor orig dest prefer flow fuel
    (pyInt (W.g.fl (t1 / W.g.deltaT)) - pyInt (W.g.fl (t0 / W.g.deltaT))).toNat
    (pyInt (W.g.fl (t0 / W.g.deltaT))) (W, 0)).map Prod.fst

/-- `vector::resize` of an array of length `m` to length `k`. -/
def resizeFn (m k : ℕ) (f : ℕ → ℚ) : ℕ → ℚ := fun t => if t < m ∧ t < k then f t else 0

/-- `World::set_t_max` (traffi.cpp:1234–1243). -/
def setTMax (W : CWorld) (tMax : ℚ) : CWorld :=
  let k := (pyInt (W.g.fl (tMax / W.g.deltaT))).toNat
  { W with
    g := { W.g with totalSteps := k }
    link := fun l => if l < W.g.nLinks then
        { W.link l with
          arr := resizeFn W.g.totalSteps k (W.link l).arr
          dep := resizeFn W.g.totalSteps k (W.link l).dep
          ttReal := (W.link l).ttReal.take k ++
            List.replicate (k - (W.link l).ttReal.length) (W.g.fl ((W.link l).len / (W.link l).vmax))
          ttInst := resizeFn W.g.totalSteps k (W.link l).ttInst }
      else W.link l }

/-- `std::max` over the capacities of links, starting from the first (traffi.cpp:214–217). -/
def maxCap (W : CWorld) : List ℕ → ℚ
  | [] => 0
  | l :: ls => ls.foldl (fun m k => max m (W.link k).cap) (W.link l).cap

/-- `Node::adjust_node_capacity` (traffi.cpp:212–224). -/
def adjustNode (W : CWorld) (n : ℕ) : CWorld :=
  if (W.node n).flowCap < 0 ∧ (W.node n).inLinks ≠ [] ∧ (W.node n).outLinks ≠ [] then
    let c := W.g.fl (W.g.fl (W.maxCap (W.node n).inLinks + W.maxCap (W.node n).outLinks) / 2)
    W.setN n (fun N => { N with
      flowCap := c
      flowRem := W.g.fl (c * W.g.deltaT)
      lanes := if N.lanes ≤ 0 then autoLanes W.g.fl c else N.lanes })
  else W

/-- `World::initialize_adj_matrix`, first call (traffi.cpp:1245–1265). The matrices it fills are
overwritten before they are read. -/
def initAdj (W : CWorld) : CWorld :=
  let W1 := if W.g.adjustCap then (List.range W.g.nNodes).foldl adjustNode W else W
  { W1 with g := { W1.g with pref := fun _ _ => 0, active := fun _ => false } }

/-- `Link::change_free_flow_speed` (traffi.cpp:570–577). -/
def changeFreeFlow (W : CWorld) (l : ℕ) (q : ℚ) : CWorld :=
  if 0 ≤ q then W.setL l (fun L => { L with
    vmax := q
    bws := W.g.fl (W.g.fl (1 / L.tau) / L.kappa)
    cap := capOf W.g.fl q (W.g.fl (W.g.fl (1 / L.tau) / L.kappa)) L.kappa
    delta := W.g.fl (1 / L.kappa) })
  else W

/-- `Link::change_jam_density` (traffi.cpp:579–587). -/
def changeJam (W : CWorld) (l : ℕ) (q : ℚ) : CWorld :=
  if 0 ≤ q then W.setL l (fun L => { L with
    kappa := q
    bws := W.g.fl (W.g.fl (1 / L.tau) / q)
    cap := capOf W.g.fl L.vmax (W.g.fl (W.g.fl (1 / L.tau) / q)) q
    delta := W.g.fl (1 / q)
    deltaLane := W.g.fl (W.g.fl (1 / q) * L.lanes) })
  else W

/-- Calls of the bindings between chunks of simulation that change parameters of one object:
`Link.capacity_in/out`, their `_remain`, `route_choice_penalty`, `set_toll_timeseries`, the two
`change_…`; `Vehicle.enforce_route` (which also sets `links_preferred`), `links_preferred`,
`links_avoid`, `trip_abort`; the assignments of `override_signal` (uxsim_cpp_wrapper.py:126–170). -/
inductive Edit
  | capIn (l : ℕ) (q : ℚ) | capOut (l : ℕ) (q : ℚ)
  | capInRem (l : ℕ) (q : ℚ) | capOutRem (l : ℕ) (q : ℚ)
  | penalty (l : ℕ) (q : ℚ) | toll (l : ℕ) (qs : List ℚ)
  | freeFlow (l : ℕ) (q : ℚ) | jam (l : ℕ) (q : ℚ)
  | enforce (v : ℕ) (ls : List ℕ) | prefer (v : ℕ) (ls : List ℕ) | avoid (v : ℕ) (ls : List ℕ)
  | tripAbort (v : ℕ) (b : Bool)
  | signal (n : ℕ) (ints : List ℚ) (off : ℚ) (phase : ℕ) (t : ℚ) | group (l : ℕ) (gs : List ℕ)

/-- The effect of an edit (bindings.cpp; traffi.cpp:570–587, 1035–1039). -/
def edit (W : CWorld) : Edit → CWorld
  | .capIn l q => W.setL l (fun L => { L with capIn := q })
  | .capOut l q => W.setL l (fun L => { L with capOut := q })
  | .capInRem l q => W.setL l (fun L => { L with capInRem := q })
  | .capOutRem l q => W.setL l (fun L => { L with capOutRem := q })
  | .penalty l q => W.setL l (fun L => { L with penalty := q })
  | .toll l qs => W.setL l (fun L => { L with toll := qs })
  | .freeFlow l q => W.changeFreeFlow l q
  | .jam l q => W.changeJam l q
  | .enforce v ls => W.setV v (fun V => { V with route := ls, prefer := ls })
  | .prefer v ls => W.setV v (fun V => { V with prefer := ls })
  | .avoid v ls => W.setV v (fun V => { V with avoid := ls })
  | .tripAbort v b => W.setV v (fun V => { V with tripAbort := b })
  | .signal n ints off p t => W.setN n (fun N => { N with
      sigInt := ints, sigOff := off, sigPhase := p, sigT := t })
  | .group l gs => W.setL l (fun L => { L with group := gs })

/-- `World::trips_completed_count` (traffi.cpp:1587–1591). -/
def tripsCount (W : CWorld) : ℚ := (List.range W.g.nLinks).foldl (fun s l => W.g.fl (s + (W.link l).trips)) 0

/-- `trips_completed` as printed by `print_simple_results` (traffi.cpp:1596). -/
def tripsPrinted (W : CWorld) : ℚ := W.g.fl (W.tripsCount * W.g.deltaN)

/-- A schedule whose lists are permutations of the links and nodes of `W`. -/
def Sched.Valid (σ : Sched) (W : CWorld) : Prop :=
  σ.update.Perm (List.range W.g.nLinks) ∧ σ.gen.Perm (List.range W.g.nNodes) ∧
  σ.follow.Perm (List.range W.g.nLinks) ∧ σ.run.Perm (List.range W.g.nLinks) ∧
  σ.wait.Perm (List.range W.g.nNodes)

end CWorld

/-- One call of the bindings: building the network, adding vehicles, `set_t_max`,
`initialize_adj_matrix`, parameter changes and `main_loop` (with any order of the iterations of its
parallel loops, each iteration taken as a whole). A vector indexed by
nodes or links is sized by `initialize_adj_matrix`; adding nodes or links while vehicles are on the
road is outside the model, as are links without lanes. `main_loop` may also end with an exception. -/
inductive CStep : CWorld → CWorld → Prop
  | node (W W' : CWorld) (ints : List ℚ) (off cap : ℚ) (lanes : ℤ) (rng : ℕ → ℕ) (fuel : ℕ)
      (h : W.addNode ints off cap lanes rng fuel = some W') : CStep W W'
  | link (W : CWorld) (src dst : ℕ) (a : CWorld.LinkArgs) (hs : src < W.g.nNodes)
      (hd : dst < W.g.nNodes) (hl : 1 ≤ a.lanes)
      (hr : ∀ v, v < W.g.nVehs → (W.veh v).state ≠ .run) : CStep W (W.addLink src dst a)
  | vehicle (W : CWorld) (dep : ℚ) (orig dest : ℕ) (prefer : List ℕ) (ho : orig < W.g.nNodes)
      (hd : dest < W.g.nNodes) : CStep W (W.addVehicle dep orig dest prefer)
  | tmax (W : CWorld) (t : ℚ) : CStep W (W.setTMax t)
  | init (W : CWorld) : CStep W W.initAdj
  | edit (W : CWorld) (e : CWorld.Edit) : CStep W (W.edit e)
  | run (W : CWorld) (endTs : ℕ) (sched : ℕ → CWorld → CWorld.Sched)
      (hs : ∀ t V, (sched t V).Valid V) : CStep W (W.mainLoop sched endTs).1

/-- Worlds that arise from an empty one by calls of the bindings. -/
inductive CReach : CWorld → Prop
  | empty (fl : ℚ → ℚ) (tMax deltaN tau duoTime duoWeight noise : ℚ)
      (hardDet gradual noCyclic adjustCap logMode : Bool) (ttInterval : ℕ) :
      CReach (CWorld.empty fl tMax deltaN tau duoTime duoWeight noise hardDet gradual noCyclic
        adjustCap logMode ttInterval)
  | step {W W' : CWorld} : CReach W → CStep W W' → CReach W'

end UX.Cpp

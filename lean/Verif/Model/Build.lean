import Verif.Model.State

/-!
# Building a scenario

`World.__init__`, `addNode`, `addLink`, `addVehicle`, `adddemand`, signal overrides, vehicle
settings and `finalize_scenario`.  `auto_rename=True` is left out:
a duplicate name always raises `ValueError`.
-/

namespace UX

/-- How the API designates a node or a link: by name, or by passing the object itself
(uxsim.py:2531–2585). Objects of other worlds are not modelled. -/
inductive Ref
  | name (s : String) | obj (i : ℕ)
  deriving DecidableEq, Repr

namespace World

/-- `World.__init__` (uxsim.py:1677–1846): an empty world. Attribute values of objects that do not
exist yet are arbitrary placeholders. -/
def new (cfg : Config) (tmax : Option ℚ) (rng : ℕ → ℕ) : World where
  cfg := cfg
  nNodes := 0
  nLinks := 0
  nVeh := 0
  N := { name := fun _ => "", x := fun _ => 0, y := fun _ => 0, inlinks := fun _ => [],
         outlinks := fun _ => [], incoming := fun _ => [], genq := fun _ => [],
         signal := fun _ => [0], signalOffset := fun _ => 0, phase := fun _ => 0,
         signalT := fun _ => 0, signalLog := fun _ => [], flowCap := fun _ => none,
         flowCapRem := fun _ => 0, lanes := fun _ => none }
  L := { name := fun _ => "", startN := fun _ => 0, endN := fun _ => 0, length := fun _ => 0,
         lanes := fun _ => 0, u := fun _ => 0, kappa := fun _ => 0, tau := fun _ => 0,
         w := fun _ => 0, capacity := fun _ => 0, delta := fun _ => 0,
         deltaPerLane := fun _ => 0, qStar := fun _ => 0, kStar := fun _ => 0,
         mergePriority := fun _ => 0, signalGroup := fun _ => [], toll := fun _ _ => 0,
         capOut := fun _ => 0, capOutRem := fun _ => 0, capIn := fun _ => 0,
         capInRem := fun _ => 0, vehs := fun _ => [], enterLog := fun _ => [],
         ttInstant := fun _ => [], cumArr := fun _ => [], cumDep := fun _ => [],
         ttActual := fun _ => [] }
  V := { name := fun _ => "", orig := fun _ => 0, dest := fun _ => none, depTime := fun _ => 0, depSec := fun _ => 0,
         arrTime := fun _ => -1, linkArrTime := fun _ => -1, travelTime := fun _ => -1,
         state := fun _ => .home, link := fun _ => none, x := fun _ => 0, xNext := fun _ => 0,
         xOld := fun _ => 0, v := fun _ => 0, lane := fun _ => 0, leader := fun _ => none,
         follower := fun _ => none, flagEnd := fun _ => false, moveRemain := fun _ => 0,
         principle := fun _ => .homogeneous, mode := fun _ => .single, destList := fun _ => [],
         nodeEvent := fun _ _ => none, pref := fun _ => .dict (fun _ => none),
         linksPrefer := fun _ => [], linksAvoid := fun _ => [], specRoute := fun _ => none,
         tripAbort := fun _ => true, flagAborted := fun _ => false, rnl := fun _ => .unset,
         logTLink := fun _ => [], linkOld := fun _ => none, dist := fun _ => 0,
         log := fun _ => [] }
  R := { dist := fun _ _ => none, next := fun _ _ => none, pref := fun _ _ => 0, record := fun _ => none }
  H := { nReq := 0, orig := fun _ => 0, dest := fun _ => 0, departTime := fun _ => 0,
         getTaxiTime := fun _ => none, arrivalTime := fun _ => none, taxi := fun _ => none,
         pending := [] }
  nodeDict := fun _ => none
  linkDict := fun _ => none
  vehDict := fun _ => none
  living := []
  running := []
  prefCache := none
  tmax := tmax
  finalized := false
  T := 0
  time := 0
  tsize := 0
  rng := rng
  avgSpeed := 0
  avgCount := 0
  trace := []

/-- `get_node` (uxsim.py:2531–2557) for a non-`None` argument. -/
def getNode (W : World) : Ref → M NodeId
  | .obj i => if i < W.nNodes then .ok i else .error .exception
  | .name s => match W.nodeDict s with | some i => .ok i | none => .error .exception

/-- `get_link` (uxsim.py:2559–2585) for a non-`None` argument. -/
def getLink (W : World) : Ref → M LinkId
  | .obj i => if i < W.nLinks then .ok i else .error .exception
  | .name s => match W.linkDict s with | some i => .ok i | none => .error .exception

/-- `sum(signal)` (uxsim.py:165, 216) with rounding after each addition. -/
def cycleLength (fl : ℚ → ℚ) (signal : List ℚ) : ℚ := signal.foldl (fun a g => fl (a + g)) 0

/-- The `while 1` loop that turns an offset into an initial phase (uxsim.py:102–113). `fuel` bounds
the number of iterations; running out of it is `Err.diverge`. -/
def findPhase (fl : ℚ → ℚ) (signal : List ℚ) : (fuel : ℕ) → (offset : ℚ) → (i : ℕ) → M (ℕ × ℚ)
  | 0, _, _ => .error .diverge
  | k + 1, off, i =>
    match signal[i]? with
    | none => .error .indexError
    | some g =>
      if off < g then .ok (i, off)
      else findPhase fl signal k (fl (off - g)) (if signal.length ≤ i + 1 then 0 else i + 1)

/-- Arguments of `addNode` (uxsim.py:1848). -/
structure NodeArgs where
  name : String
  x : ℚ := 0
  y : ℚ := 0
  signal : List ℚ := [0]
  signalOffset : ℚ := 0
  signalOffsetOld : Option ℚ := none
  flowCap : Option ℚ := none
  lanes : Option ℕ := none

/-- Initial phase and elapsed phase time of a node (uxsim.py:99–113 with 164–172). -/
def initSignal (fl : ℚ → ℚ) (fuel : ℕ) (a : NodeArgs) : M (ℕ × ℚ × ℚ) :=
  let cyc := cycleLength fl a.signal
  let soff := match a.signalOffsetOld with | some o => fl (cyc - o) | none => a.signalOffset
  if a.signal = [0] then .ok (0, 0, soff)
  else match findPhase fl a.signal fuel (fl (cyc - soff)) 0 with
    | .ok (i, t) => .ok (i, t, soff)
    | .error e => .error e

/-- `math.ceil(flow_capacity/0.8)` (uxsim.py:125, 203). -/
def autoLanes (fl : ℚ → ℚ) (c : ℚ) : ℕ := ⌈fl (c / (4/5))⌉.toNat

/-- `Node.__init__` via `addNode` (uxsim.py:25–142, 1848–1896). -/
def addNode (W : World) (fuel : ℕ) (a : NodeArgs) : M World :=
  match initSignal W.cfg.fl fuel a with
  | .error e => .error e
  | .ok (ph, t, soff) =>
    match W.nodeDict a.name with
    | some _ => .error .valueError
    | none =>
      let i := W.nNodes
      .ok { W with
        nNodes := i + 1
        nodeDict := upd W.nodeDict a.name (some i)
        N := { W.N with
          name := upd W.N.name i a.name
          x := upd W.N.x i a.x
          y := upd W.N.y i a.y
          inlinks := upd W.N.inlinks i []
          outlinks := upd W.N.outlinks i []
          incoming := upd W.N.incoming i []
          genq := upd W.N.genq i []
          signal := upd W.N.signal i a.signal
          signalOffset := upd W.N.signalOffset i soff
          phase := upd W.N.phase i ph
          signalT := upd W.N.signalT i t
          signalLog := upd W.N.signalLog i []
          flowCap := upd W.N.flowCap i a.flowCap
          flowCapRem := upd W.N.flowCapRem i
            (match a.flowCap with | some c => W.fl (c * W.dt) | none => 100000000000)
          lanes := upd W.N.lanes i
            (match a.flowCap with
              | some c => some (match a.lanes with | some k => k | none => autoLanes W.cfg.fl c)
              | none => none) } }

/-- Arguments of `addLink` (uxsim.py:1898). -/
structure LinkArgs where
  name : Option String := none
  startN : Ref
  endN : Ref
  length : ℚ
  u : ℚ := 20
  jamDensity : ℚ := 1/5
  jamPerLane : Option ℚ := none
  lanes : ℚ := 1
  mergePriority : ℚ := 1
  signalGroup : List ℕ := [0]
  capOut : Option ℚ := none
  capIn : Option ℚ := none
  toll : ℚ → ℚ := fun _ => 0

/-- Flow-model parameters of a link (uxsim.py:519–535): `(kappa, tau, w, capacity, delta,
delta_per_lane, k_star)`. Division by zero raises. -/
def linkParams (fl : ℚ → ℚ) (reaction : ℚ) (k : ℕ) (u kappa : ℚ) : M (ℚ × ℚ × ℚ × ℚ × ℚ × ℚ × ℚ) :=
  if k = 0 then .error .zeroDivision
  else
    let tau := fl (reaction / k)
    if tau = 0 ∨ kappa = 0 then .error .zeroDivision
    else
      let w := fl (fl (1 / tau) / kappa)
      if fl (u + w) = 0 ∨ u = 0 then .error .zeroDivision
      else
        let cap := fl (fl (fl (u * w) * kappa) / fl (u + w))
        let delta := fl (1 / kappa)
        .ok (kappa, tau, w, cap, delta, fl (delta * k), fl (cap / u))

/-- `Link.__init__` via `addLink` (uxsim.py:428–618, 1898–1981). `eular_dx`, Euler matrices and
attributes are not modelled; a negative `number_of_lanes` (which Python accepts and then mis-uses as
a positive index) is outside the model and reported as `Err.exception`. -/
def addLink (W : World) (a : LinkArgs) : M World := do
  let s ← W.getNode a.startN
  let e ← W.getNode a.endN
  let ki := pyInt a.lanes
  if (ki : ℚ) ≠ a.lanes then throw .valueError
  if ki < 0 then throw .exception
  let k := ki.toNat
  let kappa0 := match a.jamPerLane with | some j => W.fl (j * a.lanes) | none => a.jamDensity
  let (kappa, tau, w, cap, delta, dpl, kstar) ← linkParams W.cfg.fl W.cfg.reactionTime k a.u kappa0
  let capOut := match a.capOut with | some c => c | none => W.fl (cap * 2)
  let capIn := match a.capIn with | some c => c | none => W.fl (cap * 2)
  let capInRem := match a.capIn with | some c => W.fl (c * W.dt) | none => W.fl (cap * 2)
  let nm := match a.name with | some n => n | none => W.N.name s ++ "-" ++ W.N.name e
  match W.linkDict nm with
  | some _ => throw .valueError
  | none =>
    let i := W.nLinks
    pure { W with
      nLinks := i + 1
      linkDict := upd W.linkDict nm (some i)
      N := { W.N with
        outlinks := upd W.N.outlinks s (W.N.outlinks s ++ [i])
        inlinks := upd W.N.inlinks e (W.N.inlinks e ++ [i]) }
      L := { W.L with
        name := upd W.L.name i nm
        startN := upd W.L.startN i s
        endN := upd W.L.endN i e
        length := upd W.L.length i a.length
        lanes := upd W.L.lanes i k
        u := upd W.L.u i a.u
        kappa := upd W.L.kappa i kappa
        tau := upd W.L.tau i tau
        w := upd W.L.w i w
        capacity := upd W.L.capacity i cap
        delta := upd W.L.delta i delta
        deltaPerLane := upd W.L.deltaPerLane i dpl
        qStar := upd W.L.qStar i cap
        kStar := upd W.L.kStar i kstar
        mergePriority := upd W.L.mergePriority i a.mergePriority
        signalGroup := upd W.L.signalGroup i a.signalGroup
        toll := upd W.L.toll i a.toll
        capOut := upd W.L.capOut i capOut
        capOutRem := upd W.L.capOutRem i (W.fl (capOut * W.dt))
        capIn := upd W.L.capIn i capIn
        capInRem := upd W.L.capInRem i capInRem
        vehs := upd W.L.vehs i []
        enterLog := upd W.L.enterLog i []
        ttInstant := upd W.L.ttInstant i []
        cumArr := upd W.L.cumArr i []
        cumDep := upd W.L.cumDep i []
        ttActual := upd W.L.ttActual i [] } }

/-- `departure_time` argument: seconds, or a time step if `departure_time_is_time_step`. -/
inductive DepTime
  | sec (t : ℚ) | step (k : ℤ)

/-- The number passed as `departure_time`. -/
def DepTime.arg : DepTime → ℚ
  | .sec t => t
  | .step k => k

/-- Arguments of `addVehicle` (uxsim.py:991–1036). `dest = none` is Python's `None`. -/
structure VehArgs where
  orig : Ref
  dest : Option Ref
  dep : DepTime
  name : Option String := none
  routePref : Option (LinkId → Option ℚ) := none
  principle : Option Principle := none
  mode : Mode := .single
  linksPrefer : List Ref := []
  linksAvoid : List Ref := []
  tripAbort : Bool := true

/-- dict `{l.id: 0 for l in LINKS}` over the first `k` links -/
def zeroDict (k : ℕ) : LinkId → Option ℚ := fun l => if l < k then some 0 else none

/-- `Vehicle.__init__` via `addVehicle` (uxsim.py:991–1138, 1983–2018). The three random numbers of
`color` (uxsim.py:1119) are consumed. -/
def addVehicle (W : World) (a : VehArgs) : M World := do
  let o ← W.getNode a.orig
  let d ← match a.dest with
    | none => pure none
    | some r => (W.getNode r).map some
  let dep : ℤ := match a.dep with | .step k => k | .sec t => pyInt (W.fl (t / W.dt))
  let (pref, cache) := match a.routePref with
    | some f => (f, W.prefCache)
    | none => match W.prefCache with
      | some k => (zeroDict k, some k)
      | none => (zeroDict W.nLinks, some W.nLinks)
  let lp ← a.linksPrefer.mapM W.getLink
  let la ← a.linksAvoid.mapM W.getLink
  let i := W.nVeh
  let nm := match a.name with | some n => n | none => toString i
  match W.vehDict nm with
  | some _ => throw .valueError
  | none =>
    pure { W with
      nVeh := i + 1
      vehDict := upd W.vehDict nm (some i)
      living := W.living ++ [i]
      prefCache := cache
      rng := fun j => W.rng (j + 3)
      V := { W.V with
        name := upd W.V.name i nm
        orig := upd W.V.orig i o
        dest := upd W.V.dest i d
        depTime := upd W.V.depTime i dep
        depSec := upd W.V.depSec i (W.fl (a.dep.arg * W.dt))
        arrTime := upd W.V.arrTime i (-1)
        linkArrTime := upd W.V.linkArrTime i (-1)
        travelTime := upd W.V.travelTime i (-1)
        state := upd W.V.state i .home
        link := upd W.V.link i none
        x := upd W.V.x i 0
        xNext := upd W.V.xNext i 0
        xOld := upd W.V.xOld i 0
        v := upd W.V.v i 0
        lane := upd W.V.lane i 0
        leader := upd W.V.leader i none
        follower := upd W.V.follower i none
        flagEnd := upd W.V.flagEnd i false
        moveRemain := upd W.V.moveRemain i 0
        principle := upd W.V.principle i (a.principle.getD W.cfg.principle)
        mode := upd W.V.mode i a.mode
        destList := upd W.V.destList i []
        nodeEvent := upd W.V.nodeEvent i (fun _ => none)
        pref := upd W.V.pref i (.dict pref)
        linksPrefer := upd W.V.linksPrefer i lp
        linksAvoid := upd W.V.linksAvoid i la
        specRoute := upd W.V.specRoute i none
        tripAbort := upd W.V.tripAbort i a.tripAbort
        flagAborted := upd W.V.flagAborted i false
        rnl := upd W.V.rnl i .unset
        logTLink := upd W.V.logTLink i [(pyInt (W.fl (dep * W.dt)), .home)]
        linkOld := upd W.V.linkOld i none
        dist := upd W.V.dist i 0
        log := upd W.V.log i [] } }

/-- Python `range(a, b)` on integers. -/
def pyRange (a b : ℤ) : List ℤ := (List.range (b - a).toNat).map (fun k => a + k)

/-- `while f >= DELTAN: addVehicle(...); f -= DELTAN` (uxsim.py:2049–2051). -/
def demandWhile (o d : Ref) (t : ℤ) : (fuel : ℕ) → World → ℚ → M (World × ℚ)
  | 0, W, f => if (W.dn : ℚ) ≤ f then .error .diverge else .ok (W, f)
  | k + 1, W, f =>
    if (W.dn : ℚ) ≤ f then
      match W.addVehicle { orig := o, dest := some d, dep := .step t } with
      | .ok W' => demandWhile o d t k W' (W.fl (f - W.dn))
      | .error e => .error e
    else .ok (W, f)

/-- `for t in range(..): f += flow*DELTAT; while ...` (uxsim.py:2047–2051). The fuel is the number
of vehicles due, plus one; it suffices whenever arithmetic is exact. -/
def demandLoop (o d : Ref) (flow : ℚ) : List ℤ → World → ℚ → M (World × ℚ)
  | [], W, f => .ok (W, f)
  | t :: ts, W, f =>
    let f' := W.fl (f + W.fl (flow * W.dt))
    match demandWhile o d t (⌊f' / W.dn⌋.toNat + 1) W f' with
    | .ok (W', f'') => demandLoop o d flow ts W' f''
    | .error e => .error e

/-- `adddemand` (uxsim.py:2021–2053). -/
def addDemand (W : World) (o d : Ref) (tStart tEnd flow volume : ℚ) : M World := do
  let flow' ← if 0 < volume then
      (if W.fl (tEnd - tStart) = 0 then throw .zeroDivision
       else pure (W.fl (volume / W.fl (tEnd - tStart))))
    else pure flow
  let (W', _) ← demandLoop o d flow'
    (pyRange (pyInt (W.fl (tStart / W.dt))) (pyInt (W.fl (tEnd / W.dt)))) W 0
  pure W'

/-- `Node.override_signal` without `groups` (uxsim.py:147–175). -/
def overrideSignal (W : World) (n : NodeId) (signal : List ℚ) (offset : ℚ) (reset : Bool) : World :=
  { W with N := { W.N with
      signal := upd W.N.signal n signal
      signalOffset := upd W.N.signalOffset n offset
      phase := if reset then upd W.N.phase n 0 else W.N.phase
      signalT := if reset then upd W.N.signalT n 0 else W.N.signalT } }

/-- `phase_info` of `override_signal` (uxsim.py:180–187): phases in which each listed link is
green, in increasing order. -/
def phaseInfo : ℕ → List (List LinkId) → LinkId → List ℕ
  | _, [], _ => []
  | i, g :: gs, l => List.replicate (g.count l) i ++ phaseInfo (i + 1) gs l

/-- `Node.override_signal` with `groups` given as link objects (uxsim.py:147–190). On an exception
the signal itself has already been replaced; the model returns the exception only. -/
def overrideSignalGroups (W : World) (n : NodeId) (signal : List ℚ) (groups : List (List LinkId))
    (offset : ℚ) (reset : Bool) : M World :=
  if groups.length ≠ signal.length then .error .valueError
  else if groups.flatten.any (fun l => !(W.N.inlinks n).contains l) then .error .valueError
  else
    let W' := W.overrideSignal n signal offset reset
    .ok { W' with L := { W'.L with signalGroup := fun l =>
      if l ∈ groups.flatten then phaseInfo 0 groups l else W'.L.signalGroup l } }

/-- `Vehicle.enforce_route` (uxsim.py:1267–1285). -/
def enforceRoute (W : World) (v : VehId) (route : List Ref) (setAvoid : Bool) : M World := do
  let r ← route.mapM W.getLink
  pure { W with V := { W.V with
    specRoute := upd W.V.specRoute v (some r)
    linksPrefer := upd W.V.linksPrefer v r
    linksAvoid := if setAvoid then
        upd W.V.linksAvoid v ((List.range W.nLinks).filter (fun l => !r.contains l))
      else W.V.linksAvoid } }

/-- `Vehicle.set_links_prefer` (uxsim.py:1394–1403). -/
def setLinksPrefer (W : World) (v : VehId) (ls : List Ref) : M World := do
  let r ← ls.mapM W.getLink
  pure { W with V := { W.V with linksPrefer := upd W.V.linksPrefer v r } }

/-- `Vehicle.set_links_avoid` (uxsim.py:1405–1414). -/
def setLinksAvoid (W : World) (v : VehId) (ls : List Ref) : M World := do
  let r ← ls.mapM W.getLink
  pure { W with V := { W.V with linksAvoid := upd W.V.linksAvoid v r } }

/-- maximum of a nonempty list of rationals (`np.max`) -/
def maxQ : List ℚ → ℚ
  | [] => 0
  | a :: t => t.foldl max a

/-- `Node.adjust_node_capacity` (uxsim.py:192–204). -/
def adjustNodeCapacity (W : World) (n : NodeId) : World :=
  match W.N.flowCap n with
  | some _ => W
  | none =>
    if W.N.inlinks n = [] ∨ W.N.outlinks n = [] then W
    else
      let ci := maxQ ((W.N.inlinks n).map W.L.capacity)
      let co := maxQ ((W.N.outlinks n).map W.L.capacity)
      let c := W.fl (W.fl (ci + co) / 2)
      { W with N := { W.N with
          flowCap := upd W.N.flowCap n (some c)
          flowCapRem := upd W.N.flowCapRem n (W.fl (c * W.dt))
          lanes := match W.N.lanes n with
            | none => upd W.N.lanes n (some (autoLanes W.cfg.fl c))
            | some _ => W.N.lanes } }

/-- Largest departure time in seconds, at least 0 (uxsim.py:2328–2331). -/
def maxDeparture (W : World) : ℚ :=
  (List.range W.nVeh).foldl
    (fun m v => if m < W.fl (W.V.depTime v * W.dt) then W.fl (W.V.depTime v * W.dt) else m) 0

/-- `TMAX` as fixed by `finalize_scenario` (uxsim.py:2326–2335). -/
def fixedTmax (W : World) (tmax : Option ℚ) : ℚ :=
  match W.tmax with
  | some t => t
  | none => match tmax with
    | some t => t
    | none => W.fl (W.fl (⌊W.maxDeparture / 1800⌋ + 2) * 1800)

/-- `finalize_scenario` (uxsim.py:2312–2374) with `init_after_tmax_fix` (624–640) and
`RouteChoice.__init__` (1564–1587). A negative `TSIZE` (negative `tmax`) is truncated to 0. -/
def finalize (W : World) (tmax : Option ℚ) : World :=
  let tm := W.fixedTmax tmax
  let ts := (pyInt (W.fl (tm / W.dt))).toNat
  let W1 : World := { W with
    tmax := some tm
    T := 0
    time := 0
    tsize := ts
    finalized := true
    avgSpeed := 0
    avgCount := 0
    L := { W.L with ttActual := fun l =>
      if l < W.nLinks then List.replicate ts (W.fl (W.L.length l / W.L.u l)) else W.L.ttActual l }
    R := { dist := fun _ _ => some 0, next := fun _ _ => some 0, pref := fun _ _ => 0, record := fun _ => none } }
  if W.cfg.adjustNodeCap then (List.range W.nNodes).foldl adjustNodeCapacity W1 else W1

end World
end UX

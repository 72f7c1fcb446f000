import Verif.Model.Base

/-!
# State of a UXsim `World`

Object graphs are modelled by identifiers: nodes, links and vehicles are natural numbers (`id`
attribute, uxsim.py:132, 557, 1129), and every Python attribute `obj.attr` is a function from
identifiers to values (`W.V.x v` is `veh.x`).  Python `list`/`deque`/`dict` attributes are Lean
lists or functions.  Lists to which Python appends at the end and which it reads with `[-1]`
(`cum_arrival`, `log_t_link`, …) are stored newest-first; this is stated on each field.

Not modelled anywhere in `World`: `user_function`/`user_attribute` callbacks, plotting and printing,
wall-clock fields, Euler/Edie matrices (modelled separately), the C++ engine.
-/

namespace UX

/-- `Vehicle.state` (uxsim.py:1057). -/
inductive VState
  | home | wait | run | ended | abort
  deriving DecidableEq, Repr

/-- `Vehicle.mode` (uxsim.py:1087). -/
inductive Mode
  | single | taxi
  deriving DecidableEq, Repr

/-- `route_choice_principle` (uxsim.py:1081). -/
inductive Principle
  | homogeneous | heterogeneous
  deriving DecidableEq, Repr

/-- `Vehicle.route_pref` (uxsim.py:1094–1099, 1306–1309): either the vehicle's own dict
`{link.id: weight}` or a *view* of row `k` of the shared array `ROUTECHOICE.route_pref`. -/
inductive Pref
  | dict (f : LinkId → Option ℚ)
  | duo (k : NodeId)

/-- `Vehicle.route_next_link` (uxsim.py:1349–1368). The attribute does not exist before the first
assignment (`unset`). -/
inductive Rnl
  | unset | none | to (l : LinkId)
  deriving DecidableEq, Repr

/-- Second component of an entry of `Vehicle.log_t_link` (uxsim.py:1122, 1552–1555). -/
inductive LogEntry
  | home | link (l : LinkId) | ended
  deriving DecidableEq, Repr

/-- A bound method stored in `Vehicle.node_event` by the taxi handler
(TaxiHandler.py:46–66, 131): `TripRequest.get_on_taxi` or `TripRequest.arrive_at_dest`. -/
inductive TaxiEvent
  | getOn (r : ReqId) | arrive (r : ReqId)
  deriving DecidableEq, Repr

/-- One row of the per-vehicle log lists `log_t, log_state, log_link, log_x, log_s, log_v,
log_lane` (uxsim.py:1507–1549). `none` stands for the `-1` placeholders. -/
structure LogRow where
  t : ℚ
  state : VState
  link : Option LinkId
  x : ℚ
  s : ℚ
  v : ℚ
  lane : ℤ
  deriving DecidableEq, Repr

/-- Observable events, recorded by the model only (no Python counterpart, never read by the
modelled code): they give properties about histories something to talk about. -/
inductive Event
  /-- vehicle joined the generation queue of its origin `n` -/
  | queue (T : ℕ) (v : VehId) (n : NodeId)
  /-- vehicle left its origin queue at node `n` and entered link `l` -/
  | depart (T : ℕ) (v : VehId) (n : NodeId) (l : LinkId)
  /-- vehicle passed node `n` from link `a` to link `b`; `phase` is the signal phase at that time -/
  | pass (T : ℕ) (v : VehId) (n : NodeId) (a b : LinkId) (phase : ℕ)
  /-- vehicle ended (`aborted = false`) or aborted its trip at the end of link `l` -/
  | finish (T : ℕ) (v : VehId) (l : LinkId) (aborted : Bool)
  deriving DecidableEq, Repr

/-- `World.__init__` parameters that stay fixed (uxsim.py:1677–1843), the rounding function, and
the external shortest-path routine. -/
structure Config where
  /-- float rounding, see `Base.lean` -/
  fl : ℚ → ℚ
  /-- `DELTAN` -/
  deltan : ℕ
  /-- `REACTION_TIME` -/
  reactionTime : ℚ
  /-- `DUO_UPDATE_TIME` -/
  duoUpdateTime : ℚ
  /-- `DUO_UPDATE_WEIGHT` -/
  duoUpdateWeight : ℚ
  /-- `DUO_NOISE` -/
  duoNoise : ℚ
  /-- `route_choice_principle` -/
  principle : Principle
  /-- `route_choice_update_gradual` -/
  gradual : Bool
  /-- `instantaneous_TT_timestep_interval` as given by the user -/
  ttInterval0 : ℕ
  noCyclic : Bool
  adjustNodeCap : Bool
  /-- `vehicle_logging_timestep_interval`; `-1` disables logging -/
  logInterval : ℤ
  hardDet : Bool
  /-- `scipy.sparse.csgraph.dijkstra` as called in uxsim.py:1623, after the two transpositions:
  number of nodes and cost matrix (`none` = infinite, `some 0` = absent edge of the sparse matrix)
  to (`dist`, `next`). Uninterpreted: properties that depend on it assume a specification. -/
  dijkstra : ℕ → (NodeId → NodeId → Option ℚ) →
    (NodeId → NodeId → Option ℚ) × (NodeId → NodeId → Option NodeId)

/-- `DELTAT = REACTION_TIME*DELTAN` (uxsim.py:1785). -/
def Config.deltat (c : Config) : ℚ := c.fl (c.reactionTime * c.deltan)

/-- `DELTAT_ROUTE` (uxsim.py:1786–1788). A negative `int(..)` cannot occur for nonnegative
parameters; the model truncates it to 1 as well. -/
def Config.deltatRoute (c : Config) : ℕ :=
  let k := (pyInt (c.fl (c.duoUpdateTime / c.deltat))).toNat
  if k = 0 then 1 else k

/-- `instantaneous_TT_timestep_interval` after the cap (uxsim.py:1807–1808). -/
def Config.ttInterval (c : Config) : ℕ :=
  if c.deltatRoute < c.ttInterval0 then c.deltatRoute else c.ttInterval0

/-- `Node` attributes (uxsim.py:72–142). -/
structure NodeF where
  name : NodeId → String
  x : NodeId → ℚ
  y : NodeId → ℚ
  /-- `inlinks.values()` / `outlinks.values()` in insertion order -/
  inlinks : NodeId → List LinkId
  outlinks : NodeId → List LinkId
  incoming : NodeId → List VehId
  /-- `generation_queue`, head first -/
  genq : NodeId → List VehId
  signal : NodeId → List ℚ
  signalOffset : NodeId → ℚ
  phase : NodeId → ℕ
  signalT : NodeId → ℚ
  /-- `signal_log`, newest first -/
  signalLog : NodeId → List ℕ
  flowCap : NodeId → Option ℚ
  flowCapRem : NodeId → ℚ
  lanes : NodeId → Option ℕ

/-- `Link` attributes (uxsim.py:505–614). -/
structure LinkF where
  name : LinkId → String
  startN : LinkId → NodeId
  endN : LinkId → NodeId
  length : LinkId → ℚ
  lanes : LinkId → ℕ
  u : LinkId → ℚ
  kappa : LinkId → ℚ
  tau : LinkId → ℚ
  w : LinkId → ℚ
  capacity : LinkId → ℚ
  delta : LinkId → ℚ
  deltaPerLane : LinkId → ℚ
  qStar : LinkId → ℚ
  kStar : LinkId → ℚ
  mergePriority : LinkId → ℚ
  signalGroup : LinkId → List ℕ
  /-- `get_toll(t)`: `congestion_pricing` or the constant penalty (uxsim.py:878–898) -/
  toll : LinkId → ℚ → ℚ
  capOut : LinkId → ℚ
  capOutRem : LinkId → ℚ
  capIn : LinkId → ℚ
  capInRem : LinkId → ℚ
  /-- `vehicles`, head (exit end) first -/
  vehs : LinkId → List VehId
  /-- `vehicles_enter_log`, newest first, one entry per key -/
  enterLog : LinkId → List (ℚ × VehId)
  /-- newest first -/
  ttInstant : LinkId → List ℚ
  /-- newest first -/
  cumArr : LinkId → List ℕ
  /-- newest first -/
  cumDep : LinkId → List ℕ
  /-- `traveltime_actual`, index = time step -/
  ttActual : LinkId → List ℚ

/-- `Vehicle` attributes (uxsim.py:1038–1138). -/
structure VehF where
  name : VehId → String
  orig : VehId → NodeId
  dest : VehId → Option NodeId
  /-- `departure_time` in time steps -/
  depTime : VehId → ℤ
  /-- `departure_time_in_second` -/
  depSec : VehId → ℚ
  /-- `arrival_time` in time steps, `-1` if not arrived -/
  arrTime : VehId → ℤ
  linkArrTime : VehId → ℚ
  travelTime : VehId → ℚ
  state : VehId → VState
  link : VehId → Option LinkId
  x : VehId → ℚ
  xNext : VehId → ℚ
  xOld : VehId → ℚ
  v : VehId → ℚ
  lane : VehId → ℕ
  leader : VehId → Option VehId
  follower : VehId → Option VehId
  /-- `flag_waiting_for_trip_end` -/
  flagEnd : VehId → Bool
  moveRemain : VehId → ℚ
  principle : VehId → Principle
  mode : VehId → Mode
  destList : VehId → List NodeId
  nodeEvent : VehId → NodeId → Option TaxiEvent
  pref : VehId → Pref
  linksPrefer : VehId → List LinkId
  linksAvoid : VehId → List LinkId
  specRoute : VehId → Option (List LinkId)
  /-- `trip_abort == 1` -/
  tripAbort : VehId → Bool
  flagAborted : VehId → Bool
  rnl : VehId → Rnl
  /-- `log_t_link`, newest first -/
  logTLink : VehId → List (ℚ × LogEntry)
  linkOld : VehId → Option LinkId
  dist : VehId → ℚ
  /-- `log_t` … `log_lane`, newest first -/
  log : VehId → List LogRow

/-- `RouteChoice` (uxsim.py:1564–1587). -/
structure RouteF where
  dist : NodeId → NodeId → Option ℚ
  next : NodeId → NodeId → Option NodeId
  /-- `route_pref[dest, link]` -/
  pref : NodeId → LinkId → ℚ
  /-- `dist_record`: time step to `dist` -/
  record : ℕ → Option (NodeId → NodeId → Option ℚ)

/-- `TripRequest` objects and the lists of a `TaxiHandler` (TaxiHandler.py:12–45, 68–115). -/
structure TaxiF where
  nReq : ℕ
  orig : ReqId → NodeId
  dest : ReqId → NodeId
  departTime : ReqId → ℚ
  getTaxiTime : ReqId → Option ℚ
  arrivalTime : ReqId → Option ℚ
  taxi : ReqId → Option VehId
  /-- `trip_requests` (pending) -/
  pending : List ReqId

/-- A `World` (uxsim.py:1665–1846, 2332–2374). -/
structure World where
  cfg : Config
  nNodes : ℕ
  nLinks : ℕ
  nVeh : ℕ
  N : NodeF
  L : LinkF
  V : VehF
  R : RouteF
  H : TaxiF
  /-- `NODES_NAME_DICT`, `LINKS_NAME_DICT`, keys of `VEHICLES` -/
  nodeDict : String → Option NodeId
  linkDict : String → Option LinkId
  vehDict : String → Option VehId
  /-- `VEHICLES_LIVING`, `VEHICLES_RUNNING` in insertion order -/
  living : List VehId
  running : List VehId
  /-- `route_pref_for_vehs`: number of links when the cached dict was built -/
  prefCache : Option ℕ
  tmax : Option ℚ
  finalized : Bool
  T : ℕ
  time : ℚ
  tsize : ℕ
  /-- raw random numbers still to be consumed from `W.rng` -/
  rng : ℕ → ℕ
  /-- `analyzer.average_speed`, `analyzer.average_speed_count` -/
  avgSpeed : ℚ
  avgCount : ℕ
  /-- observable history, newest first (model only) -/
  trace : List Event

namespace World

/-- `DELTAT` -/
def dt (W : World) : ℚ := W.cfg.deltat

/-- `DELTAN` -/
def dn (W : World) : ℕ := W.cfg.deltan

/-- float rounding -/
def fl (W : World) (q : ℚ) : ℚ := W.cfg.fl q

/-- `W.T*W.DELTAT` -/
def now (W : World) : ℚ := W.fl (W.T * W.dt)

/-- Car-following spacing `delta_per_lane*DELTAN` of a link (uxsim.py:268, 1257). -/
def gap (W : World) (l : LinkId) : ℚ := W.fl (W.L.deltaPerLane l * W.dn)

/-- consume one raw random number -/
def draw (W : World) : ℕ × World := (W.rng 0, { W with rng := fun i => W.rng (i + 1) })

end World
end UX

import Verif.Model.State

/-!
# State of the C++ engine (`World(..., cpp=True)`)

`uxsim/trafficpp/traffi.{h,cpp}` is a second implementation of the simulator. Here its objects are
records (`CNode`, `CLink`, `CVeh`), its pointers are identifiers (`id` members, traffi.cpp:49, 479,
730) and its `World` is a record of globals plus three arrays of objects. The per-entity vectors of
`World` (`node_rngs`, `link_rngs`, `node_stat_count`, `link_ave_v_sum`, …, traffi.h) are indexed by
entity id only, so they are stored as fields of the node or link they belong to.

Numbers. `double` is `ℚ` with the rounding function `fl` applied after every operation, as in the
Python model; overflow, NaN and `int` overflow are not modelled. `std::mt19937` streams are streams
of raw natural numbers, one per entity, over which every theorem quantifies.

Not modelled: printing, wall-clock members, `traveltime_t/traveltime_tt`, reserved capacities and
reused scratch buffers (`_buf_*`, `rsa_*`, `tls_run_snapshot`), members that are never read
(`route_adaptive`, `route_choice_flag_on_link`, `Vehicle::route_preference`,
`route_choice_principle`, `adj_mat`), coordinates and names.
-/

namespace UX.Cpp

/-- C++ exceptions thrown by the engine: `std::out_of_range`, `std::invalid_argument`,
`std::runtime_error` (traffi.cpp:946, 950, 986, 1653). -/
inductive CErr
  | outOfRange | invalidArgument | runtime
  deriving DecidableEq, Repr

/-- One entry of `log_link, log_x, log_v, log_lane, log_s` (traffi.h, `Vehicle`). `none` stands for
the link id `-1`. -/
structure CLog where
  link : Option ℕ
  x : ℚ
  v : ℚ
  lane : ℤ
  s : ℚ
  deriving DecidableEq, Repr

/-- `struct Vehicle` (traffi.h). -/
structure CVeh where
  /-- `departure_time`, in seconds -/
  depTime : ℚ
  orig : ℕ
  dest : ℕ
  link : Option ℕ
  arrivalTime : ℚ
  travelTime : ℚ
  /-- `distance_traveled` -/
  dist : ℚ
  x : ℚ
  xNext : ℚ
  xOld : ℚ
  v : ℚ
  moveRem : ℚ
  lane : ℕ
  leader : Option ℕ
  follower : Option ℕ
  state : VState
  /-- `flag_waiting_for_trip_end` -/
  flagWait : Bool
  flagAbort : Bool
  tripAbort : Bool
  /-- `arrival_time_link` -/
  arrTimeLink : ℚ
  /-- `route_next_link` (`none` = `nullptr`) -/
  next : Option ℕ
  prefer : List ℕ
  avoid : List ℕ
  /-- `specified_route`; empty means none -/
  route : List ℕ
  /-- `_traveled_nodes` -/
  visited : ℕ → Bool
  /-- `_traveled_link_count` -/
  count : ℕ
  /-- the log vectors, oldest entry first; `log_size` is its length -/
  log : List CLog
  /-- `log_first_ts`, `log_last_ts` (`-1` before the first entry) -/
  logFirst : ℤ
  logLast : ℤ
  logWait : ℕ
  logEnd : ℕ
  /-- Not a member of the C++ class: the `(timestep, state)` pairs that storing every entry at once
  would have recorded. Written together with `log`, never read by the engine. -/
  eager : List (ℕ × VState)

/-- `struct Link` (traffi.h) with its entries of the per-link vectors of `World`. -/
structure CLink where
  src : ℕ
  dst : ℕ
  len : ℚ
  lanes : ℕ
  vmax : ℚ
  kappa : ℚ
  delta : ℚ
  /-- `delta_per_lane` -/
  deltaLane : ℚ
  tau : ℚ
  cap : ℚ
  /-- `backward_wave_speed` -/
  bws : ℚ
  mergePri : ℚ
  capOut : ℚ
  capOutRem : ℚ
  capIn : ℚ
  capInRem : ℚ
  group : List ℕ
  /-- `route_choice_penalty` -/
  penalty : ℚ
  /-- `toll_timeseries` -/
  toll : List ℚ
  /-- `vehicles`, front first -/
  vehs : List ℕ
  /-- `arrival_curve`, `departure_curve` (vectors of length `total_timesteps`) -/
  arr : ℕ → ℚ
  dep : ℕ → ℚ
  ttReal : List ℚ
  ttEvents : List (ℕ × ℚ)
  ttApplied : ℕ
  /-- `traveltime_instant` -/
  ttInst : ℕ → ℚ
  /-- `arrived_vehicles` -/
  arrived : List ℕ
  /-- `ended_buf` -/
  ended : List ℕ
  /-- `link_ave_v_sum`, `link_ave_vratio_sum`, `link_stat_count`, `link_trips_completed` -/
  aveV : ℚ
  aveVr : ℚ
  stat : ℚ
  trips : ℚ
  /-- `link_rngs` -/
  rng : ℕ → ℕ
  /-- Exception caught by the RUN pass of this time step on this link (traffi.cpp:1777–1780). -/
  exc : Option CErr

/-- `struct Node` (traffi.h) with its entries of the per-node vectors of `World`. -/
structure CNode where
  inLinks : List ℕ
  outLinks : List ℕ
  /-- `incoming_vehicles`; the mirror `incoming_vehicles_requests` is not modelled -/
  incoming : List ℕ
  /-- `generation_queue`, front first -/
  genQ : List ℕ
  /-- `running_gen_buf` -/
  runBuf : List ℕ
  sigInt : List ℚ
  sigOff : ℚ
  sigT : ℚ
  sigPhase : ℕ
  /-- `signal_log`, oldest first -/
  sigLog : List ℕ
  /-- `flow_capacity` (negative = unlimited) -/
  flowCap : ℚ
  flowRem : ℚ
  lanes : ℤ
  /-- `node_stat_count` -/
  stat : ℚ
  /-- `node_rngs` -/
  rng : ℕ → ℕ
  /-- Exception caught by the generate stage of this time step at this node (traffi.cpp:1721–1724). -/
  exc : Option CErr

/-- The members of `struct World` that do not belong to one entity (traffi.h). -/
structure CGlob where
  fl : ℚ → ℚ
  deltaN : ℚ
  tau : ℚ
  /-- `delta_t = tau * delta_n` -/
  deltaT : ℚ
  duoTime : ℚ
  duoWeight : ℚ
  /-- `route_choice_uncertainty` -/
  noise : ℚ
  hardDet : Bool
  gradual : Bool
  noCyclic : Bool
  adjustCap : Bool
  /-- `instantaneous_TT_timestep_interval` -/
  ttInterval : ℕ
  logMode : Bool
  totalSteps : ℕ
  /-- `timestep_for_route_update` -/
  routeSteps : ℕ
  nNodes : ℕ
  nLinks : ℕ
  nVehs : ℕ
  timestep : ℕ
  /-- `route_preference[dest][link]` -/
  pref : ℕ → ℕ → ℚ
  /-- `route_pref_active[dest]` -/
  active : ℕ → Bool
  /-- `adj_mat_time`; `none` is infinity -/
  adj : ℕ → ℕ → Option ℚ
  /-- `route_next`; `none` is `-1` -/
  next : ℕ → ℕ → Option ℕ
  /-- `route_dist`; `none` is infinity -/
  dist : ℕ → ℕ → Option ℚ
  /-- `vehicles_living`, `vehicles_running` (sets of ids) -/
  living : ℕ → Bool
  running : ℕ → Bool

/-- `struct World`. -/
structure CWorld where
  g : CGlob
  node : ℕ → CNode
  link : ℕ → CLink
  veh : ℕ → CVeh

namespace CWorld

/-- `node->member = …` -/
def setN (W : CWorld) (n : ℕ) (f : CNode → CNode) : CWorld :=
  { W with node := upd W.node n (f (W.node n)) }

/-- `link->member = …` -/
def setL (W : CWorld) (l : ℕ) (f : CLink → CLink) : CWorld :=
  { W with link := upd W.link l (f (W.link l)) }

/-- `veh->member = …` -/
def setV (W : CWorld) (v : ℕ) (f : CVeh → CVeh) : CWorld :=
  { W with veh := upd W.veh v (f (W.veh v)) }

/-- `(double)w->timestep * w->delta_t` -/
def now (W : CWorld) : ℚ := W.g.fl (W.g.timestep * W.g.deltaT)

/-- `link->delta_per_lane * w->delta_n` -/
def gap (W : CWorld) (l : ℕ) : ℚ := W.g.fl ((W.link l).deltaLane * W.g.deltaN)

end CWorld
end UX.Cpp

import Verif.Model.CppBuild
import Verif.Model.CppLog

/-!
# The Python side of the C++ engine: `CppWorld` (uxsim_cpp_wrapper.py)

`CppWorld` keeps registries of vehicles, the clock and copies of vehicle logs beside the C++ world. Simplifications:
a vehicle object is its C++ index; `auto_rename`, attributes, colours, printing, tolls at `finalize_scenario`, the
fallbacks for older builds of the engine and `basic_analysis` are left out. C++ exceptions in `main_loop` end the
history.
-/

namespace UX.Cpp

/-- `d[k] = v` for a Python dict: a key that is there keeps its place. -/
def odSet (d : List (String × ℕ)) (k : String) (i : ℕ) : List (String × ℕ) :=
  if k ∈ d.map Prod.fst then d.map (fun p => if p.1 = k then (k, i) else p) else d ++ [(k, i)]

/-- `d.pop(k, None)`. -/
def odPop (d : List (String × ℕ)) (k : String) : List (String × ℕ) := d.filter (fun p => p.1 ≠ k)

/-- An entry of `log_t_link` (uxsim_cpp_wrapper.py:641–664): time and `"home"`, a link, or `"end"`. -/
inductive WPlace
  | home | link (l : ℕ) | done
  deriving DecidableEq, Repr

/-- An entry of `log_t, log_state, log_link, log_x, log_v` as Python sees it. -/
structure WRow where
  t : ℚ
  state : VState
  link : Option ℕ
  x : ℚ
  v : ℚ
  deriving DecidableEq, Repr

/-- `_log_cache` of a vehicle (uxsim_cpp_wrapper.py:1357–1367). -/
structure WLog where
  rows : List WRow
  places : List (ℚ × WPlace)
  deriving DecidableEq, Repr

/-- `CppWorld` (uxsim_cpp_wrapper.py:800–876). -/
structure Wrap where
  /-- `_cpp_world` -/
  c : CWorld
  /-- `name` of the vehicles in `_veh_by_index`; its length is `_cpp_veh_registered_count` -/
  names : List String
  /-- `id` of the vehicles in `_veh_by_index` -/
  ids : List ℕ
  /-- `VEHICLES`, `VEHICLES_LIVING`, `VEHICLES_RUNNING` -/
  vehs : List (String × ℕ)
  living : List (String × ℕ)
  running : List (String × ℕ)
  /-- `_log_cache` -/
  cache : ℕ → Option WLog
  tmax : Option ℚ
  T : ℕ
  tsize : ℤ
  finalized : Bool

/-- Exceptions of the wrapper: `ValueError` for a used name, `IndexError`, `Exception` of `exec_simulation`, and those
of the engine. -/
inductive WErr
  | valueError | indexError | exception | cpp (e : CErr)
  deriving DecidableEq, Repr

namespace Wrap

/-- `__init__` and `_ensure_cpp_world` (uxsim_cpp_wrapper.py:803–898); without a given `tmax` the engine gets 7200. -/
def new (fl : ℚ → ℚ) (tmax : Option ℚ) (deltaN tau duoTime duoWeight noise : ℚ)
    (hardDet gradual noCyclic adjustCap logMode : Bool) (ttInterval : ℕ) : Wrap where
  c := CWorld.empty fl (tmax.getD 7200) deltaN tau duoTime duoWeight noise hardDet gradual noCyclic adjustCap
    logMode ttInterval
  names := []
  ids := []
  vehs := []
  living := []
  running := []
  cache := fun _ => none
  tmax := tmax
  T := 0
  tsize := 0
  finalized := false

/-- One round of the loop of `_register_new_cpp_vehicles` (uxsim_cpp_wrapper.py:1217–1250): the name is that given by
`add_demand` (traffi.cpp:1929). `veh_id` starts with `len(VEHICLES)` and counts on. -/
def registerOne (id0 : ℕ) (W : Wrap) (j : ℕ) : Wrap :=
  let i := W.names.length
  { W with
    names := W.names ++ [toString i]
    ids := W.ids ++ [id0 + j]
    vehs := odSet W.vehs (toString i) i
    living := odSet W.living (toString i) i
    cache := upd W.cache i none }

/-- `_register_new_cpp_vehicles` (uxsim_cpp_wrapper.py:1204–1251). -/
def register (W : Wrap) : Wrap :=
  (List.range (W.c.g.nVehs - W.names.length)).foldl (registerOne W.vehs.length) W

/-- `adddemand` (uxsim_cpp_wrapper.py:1002–1012), `c` being the engine after `add_demand`. -/
def addDemand (W : Wrap) (c : CWorld) : Wrap := register { W with c := c }

/-- The arguments that `addVehicle` gives to `add_demand` (uxsim_cpp_wrapper.py:962–963), `t` being the departure time
in seconds. -/
def oneVehicle (W : Wrap) (t : ℚ) (orig dest : ℕ) (prefer : List ℕ) (fuel : ℕ) : Option CWorld :=
  W.c.addDemand orig dest t (W.c.g.fl (t + W.c.g.deltaT)) (W.c.g.fl (W.c.g.deltaN / W.c.g.deltaT)) prefer fuel

/-- The check of the name (uxsim_cpp_wrapper.py:942–950). -/
def nameUsed (W : Wrap) : Option String → Bool
  | none => false
  | some s => decide (s ∈ W.vehs.map Prod.fst)

/-- The rest of `addVehicle` (uxsim_cpp_wrapper.py:979–993), `n` being `n_before` and `c` the engine after
`add_demand`. The vehicle taken for the new one is that with index `n_before`. -/
def named (W : Wrap) (n : ℕ) (c : CWorld) (name : Option String) : Except WErr Wrap :=
  let W1 := register { W with c := c }
  match W1.names[n]? with
  | none => .error .indexError
  | some old =>
    match name with
    | none => .ok W1
    | some s => .ok { W1 with
        names := W1.names.set n s
        vehs := odSet (odPop W1.vehs old) s n
        living := odSet (odPop W1.living old) s n }

/-- `addVehicle` (uxsim_cpp_wrapper.py:927–993); `none` if `add_demand` does not end within `fuel` rounds. -/
def addVehicle (W : Wrap) (t : ℚ) (orig dest : ℕ) (prefer : List ℕ) (name : Option String) (fuel : ℕ) :
    Option (Except WErr Wrap) :=
  if W.nameUsed name then some (.error .valueError)
  else (W.oneVehicle t orig dest prefer fuel).map (fun c => W.named W.c.g.nVehs c name)

/-- `_compute_auto_tmax` (uxsim_cpp_wrapper.py:1078–1085). -/
def autoTmax (W : Wrap) : ℚ :=
  let m := W.vehs.foldl (fun m p =>
    max m (W.c.g.fl (pyInt (W.c.g.fl ((W.c.veh p.2).depTime / W.c.g.deltaT)) * W.c.g.deltaT))) 0
  W.c.g.fl ((⌊W.c.g.fl (m / 1800)⌋ + 2) * 1800)

/-- `finalize_scenario` and `_setup_analyzer` (uxsim_cpp_wrapper.py:1087–1163). -/
def finalize (W : Wrap) (tmax : Option ℚ) : Wrap :=
  let t := match W.tmax with
    | some t => t
    | none => match tmax with
      | some t => t
      | none => W.autoTmax
  { W with
    c := (W.c.setTMax t).initAdj
    tmax := some t
    T := 0
    tsize := pyInt (W.c.g.fl (t / W.c.g.deltaT))
    finalized := true }

/-- One round of the loop of `_sync_from_cpp` (uxsim_cpp_wrapper.py:1268–1281). Whether an ended trip is reported as
aborted (traffi.cpp:1947–1958) does not matter here. -/
def syncOne (W : Wrap) (i : ℕ) : Wrap :=
  match W.names[i]? with
  | none => W
  | some s =>
    match (W.c.veh i).state with
    | .ended | .abort => { W with living := odPop W.living s, running := odPop W.running s }
    | .run => { W with living := odSet W.living s i, running := odSet W.running s i }
    | _ => { W with living := odSet W.living s i, running := odPop W.running s }

/-- `_sync_from_cpp` (uxsim_cpp_wrapper.py:1253–1302), without the average speed. -/
def sync (W : Wrap) : Wrap := (List.range W.c.g.nVehs).foldl syncOne W

/-- The cache that is made for vehicle `v` (uxsim_cpp_wrapper.py:1309–1367, traffi.cpp:1990–2081): entries for the time
steps before the first log entry are put in front. -/
def buildLog (c : CWorld) (v : ℕ) : WLog where
  rows := (List.range (c.nMissing v)).map (fun k => ⟨c.g.fl (k * c.g.deltaT), .home, none, -1, -1⟩) ++
    (c.veh v).log.mapIdx (fun i e =>
      let s := c.logStateAt v i
      ⟨c.logTAt v i, s, e.link, if s = .run then e.x else -1, if s = .run then e.v else -1⟩)
  places := ((c.veh v).depTime, .home) :: ((c.enterLog v).map (fun p => (p.2, .link p.1)) ++
    if (c.veh v).state = .ended then
      [(if 0 ≤ (c.veh v).arrivalTime then (c.veh v).arrivalTime else -1, .done)] else [])

/-- `_build_all_vehicle_log_caches` (uxsim_cpp_wrapper.py:1309–1367): what is there already stays. -/
def readLogs (W : Wrap) : Wrap :=
  { W with cache := fun v => match W.cache v with
      | some L => some L
      | none => if v < W.names.length then some (buildLog W.c v) else none }

/-- What `log_t`, `log_x`, … of vehicle `v` show (uxsim_cpp_wrapper.py:580–664). -/
def log (W : Wrap) (v : ℕ) : Option WLog := W.readLogs.cache v

/-- How `exec_simulation` is called. -/
inductive Until
  | toEnd | untilT (t : ℚ) | duration (d : ℚ) | duration2 (d : ℚ)

/-- `end_ts` (uxsim_cpp_wrapper.py:1170–1181). -/
def endTs (W : Wrap) : Until → ℤ
  | .toEnd => W.tsize
  | .untilT t => min (pyInt (W.c.g.fl (t / W.c.g.deltaT))) W.tsize
  | .duration d => min (W.T + pyInt (W.c.g.fl (d / W.c.g.deltaT))) W.tsize
  | .duration2 d => min (W.T + pyInt (W.c.g.fl (d / W.c.g.deltaT)) - 1) W.tsize

/-- `end_ts` of `main_loop` for `until_t = end_ts*DELTAT` (uxsim_cpp_wrapper.py:1192, traffi.cpp:1651). -/
def cppEnd (W : Wrap) (e : ℤ) : ℕ :=
  ⌊W.c.g.fl (W.c.g.fl (e * W.c.g.deltaT) / W.c.g.deltaT)⌋.toNat + 1

/-- The main part of `exec_simulation` (uxsim_cpp_wrapper.py:1191–1202) for the last time step `e`; the second
component is the return value. -/
def run (sched : ℕ → CWorld → CWorld.Sched) (W : Wrap) (e : ℤ) : Except WErr (Wrap × ℕ) :=
  match W.c.mainLoop sched (W.cppEnd e) with
  | (_, some x) => .error (.cpp x)
  | (c, none) =>
    let W1 := { sync { W with c := c } with T := c.g.timestep }
    if W1.tsize ≤ W1.T then .ok (W1.readLogs, 1) else .ok (W1, 0)

/-- `exec_simulation` (uxsim_cpp_wrapper.py:1165–1202). -/
def exec (sched : ℕ → CWorld → CWorld.Sched) (W : Wrap) (u : Until) : Except WErr (Wrap × ℕ) :=
  let W := if W.finalized then W else W.finalize none
  let e := W.endTs u
  if (W.T : ℤ) = e ∧ e = W.tsize then .ok (W.readLogs, 1)
  else if e < W.T then .error .exception
  else run sched W e

/-- `check_simulation_ongoing` (uxsim_cpp_wrapper.py:1306–1307). -/
def ongoing (W : Wrap) : Bool := !W.finalized || decide ((W.T : ℤ) ≤ W.tsize - 1)

end Wrap

/-- One call. `OK` restricts the names given to vehicles. Nodes and links are added before `finalize_scenario`, which
is called once. -/
inductive WStep (OK : String → Prop) : Wrap → Wrap → Prop
  | node (W : Wrap) (c : CWorld) (ints : List ℚ) (off cap : ℚ) (lanes : ℤ) (rng : ℕ → ℕ) (fuel : ℕ)
      (hf : W.finalized = false) (h : W.c.addNode ints off cap lanes rng fuel = some c) :
      WStep OK W { W with c := c }
  | link (W : Wrap) (src dst : ℕ) (a : CWorld.LinkArgs) (hf : W.finalized = false) (hs : src < W.c.g.nNodes)
      (hd : dst < W.c.g.nNodes) (hl : 1 ≤ a.lanes) : WStep OK W { W with c := W.c.addLink src dst a }
  | demand (W : Wrap) (c : CWorld) (orig dest : ℕ) (t0 t1 flow : ℚ) (fuel : ℕ) (ho : orig < W.c.g.nNodes)
      (hd : dest < W.c.g.nNodes) (h : W.c.addDemand orig dest t0 t1 flow [] fuel = some c) :
      WStep OK W (W.addDemand c)
  | vehicle (W W' : Wrap) (t : ℚ) (orig dest : ℕ) (prefer : List ℕ) (name : Option String) (fuel : ℕ)
      (ho : orig < W.c.g.nNodes) (hd : dest < W.c.g.nNodes) (hn : ∀ s, name = some s → OK s)
      (h : W.addVehicle t orig dest prefer name fuel = some (.ok W')) : WStep OK W W'
  | edit (W : Wrap) (e : CWorld.Edit) : WStep OK W { W with c := W.c.edit e }
  | finalize (W : Wrap) (t : Option ℚ) (hf : W.finalized = false) : WStep OK W (W.finalize t)
  | exec (W W' : Wrap) (u : Wrap.Until) (r : ℕ) (sched : ℕ → CWorld → CWorld.Sched)
      (hs : ∀ t V, (sched t V).Valid V) (h : W.exec sched u = .ok (W', r)) : WStep OK W W'
  | logs (W : Wrap) : WStep OK W W.readLogs

/-- Worlds of the wrapper that arise by calls. -/
inductive WReach (OK : String → Prop) : Wrap → Prop
  | new (fl : ℚ → ℚ) (tmax : Option ℚ) (deltaN tau duoTime duoWeight noise : ℚ)
      (hardDet gradual noCyclic adjustCap logMode : Bool) (ttInterval : ℕ) :
      WReach OK (Wrap.new fl tmax deltaN tau duoTime duoWeight noise hardDet gradual noCyclic adjustCap logMode
        ttInterval)
  | step {W W' : Wrap} : WReach OK W → WStep OK W W' → WReach OK W'

end UX.Cpp

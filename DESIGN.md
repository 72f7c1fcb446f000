# Formal model of UXsim in Lean 4

## Trusted base

* Lean's kernel (4.33.0) and Mathlib's definitions of `ℚ`, `ℤ`, `List`, `Finset`, ….
* Axioms: every theorem named in `MANIFEST.json` depends on a subset of `propext`, `Classical.choice`,
  `Quot.sound` (`C22_ongoing` and `C46_start_false` on `propext` only). Nothing is declared as an axiom,
  and neither `sorry` nor `native_decide`/`bv_decide` occurs.
* The faithfulness of `Verif/Model/*.lean` to the Python text in `/repo`. The code was read, never run.
* numpy, scipy, `random` and Python itself behaving as described below.

## How the code is modelled

`lean/Verif/Model/` is a shallow, executable model, function by function; every definition cites the file
and the lines it mirrors and states its simplifications.

* Objects are identifiers (their `id`); an attribute `veh.x` is a function `W.V.x : VehId → ℚ`.
* Exceptions are values (`Except Err`). A `while` loop whose termination is not obvious takes fuel;
  running out of fuel is `Err.diverge`.
* Floats are rationals plus a rounding function `fl`, applied after each float operation of the traffic
  code. `FlOK fl` (monotone, `fl 0 = 0`, idempotent) holds of exact arithmetic and of IEEE rounding without
  overflow, so theorems assuming only `FlOK` hold for rounded arithmetic. Theorems that need exact arithmetic
  assume `fl = id` and say so. Routing arithmetic, statistics and the solvers are exact.
* Random numbers are an arbitrary stream `ℕ → ℕ` in the state. `rng.choice(p=…)` may return any element of
  positive weight; probabilities are not modelled. Theorems quantify over the stream, hence over every random
  outcome. The solvers use a monad `RandM` over such a stream.
* `scipy`'s `dijkstra` is an uninterpreted function in `Config`. Theorems about shortest paths assume its
  specification (`Spec/RouteChoice.lean`); all others hold for any function.
* A ghost field `trace` records queueing, departures, node passages and trip ends. Nothing in the model reads
  it; it lets specifications speak about histories.
* `Reachable OK W`: `W` arises from an empty world by API calls and steps (`ApiStep`, `Model/Reach.lean`),
  with `OK` true on the way. `OK` is where a theorem states its assumptions on parameters.

### What is modelled

| Model file | Code |
|---|---|
| `State`, `Base` | attributes of `Node`, `Link`, `Vehicle`, `RouteChoice`, `World`, `TaxiHandler`; Python helpers |
| `Build` | `Node/Link/Vehicle.__init__`, `addNode`, `addLink`, `addVehicle`, `adddemand`, `override_signal`, `enforce_route`, `set_links_prefer/avoid`, `adjust_node_capacity`, `finalize_scenario` |
| `Sim` | `Link.update`, `Node.generate/signal_control/flow_capacity_update/transfer/update`, `Vehicle.update/carfollow/end_trip/route_pref_update/route_next_link_choice/add_dest/record_log`, `RouteChoice`, the loop of `exec_simulation` |
| `Reach` | `change_free_flow_speed`, `change_jam_density`, assignments to capacities, the relation `ApiStep` |
| `Taxi` | `TripRequest`, `assign_taxi`, the random and the two nearest handlers |
| `Query` | `Link.arrival_count` … `average_flow`, `num_vehicles(_queue)` |
| `Route` | `Route.__init__`, `actual_travel_time`, `Vehicle.traveled_route` |
| `Logs` | `Vehicle.get_xy_coords` and the logs it reads |
| `Analyzer` | `basic_analysis`, trip sums of `od_analysis` |
| `Delay` | `od_tt_free`, `od_dist_min` (with scipy's `floyd_warshall`), `total_delay`, `average_delay` |
| `OdTable` | `od_to_pandas`, `areas2areas_to_pandas`, ratios of `vehicle_groups_to_pandas` |
| `Edie` | `compute_accurate_traj`, `compute_edie_state` |
| `Tables` | `link_to_pandas`, `link_cumulative_to_pandas`, `vehicles_to_pandas`, `vehicle_trip_to_pandas`, `area_to_pandas`, `vehicle_groups_to_pandas`, `compute_mfd`, `mfd_to_pandas`, `compute_stats`, `basic_to_pandas`, `print_stats`, `trips_to_pandas` of `TaxiHandler` |
| `Areas` | `get_nearest_node`, `get_nodes_in_area`, `adddemand_point2point/area2area/nodes2nodes(2)` |
| `Random`, `Solvers`, `Alns` | `SolverDUE`, `SolverDSO_D2D`, `SolverDSO_GA` (loops; simulations are inputs), `ALNS.py`, `SolverDSO_ALNS` |
| `Utilities` | `Utilities.py`: shortest travel times at a time, shortest distances, k shortest routes, random routes |
| `Externality`, `TimeSpace`, `Grid` | `Utilities.py`: congestion externality of links and routes, time-space network, grid networks |
| `Osm` | `OSMImporter.py`: `import_osm_data` after the download (the graph, its coordinates and the conversion of its strings to numbers are inputs, speeds exact) and `osm_network_postprocessing` (the distance is any symmetric function) |
| `Osm2` | `OSMImporter2.py`: `_extract_network_from_geodataframe` and `_attach_osm_nodes_links` (the table of roads, rounding and the conversion of strings are inputs, speeds exact, the world is empty before and names are distinct) |
| `Scenario` | `save_scenario`, `load_scenario`, `demand_info_record` |
| `CppState`, `CppBuild`, `CppSim`, `CppTimes`, `CppLog`, `CppStats`, `CppDta` | C++ engine (`trafficpp/traffi.cpp`): constructors, `add_demand`, parameter changes, every function called by `main_loop`, `route_search_all`, travel-time records, reading of vehicle logs, the functions of `dta_solver.cpp` (travelled routes, route costs, route swaps, enforcing routes) |
| `CppWrap` | `CppWorld` of `uxsim_cpp_wrapper.py`: registries of vehicles, `addVehicle`, `adddemand`, `finalize_scenario`, `exec_simulation`, cached vehicle logs |
| `CppNames` | `CppNode.__init__`, `CppLink.__init__`, `get_node`: registries of names in Python and in the engine, `auto_rename` |
| `CppQuery` | `CppLink`: counts, travel times, averages at a time, present speed, density, flow and numbers of vehicles |
| `CppVeh` | `CppVehicle`: `state`, `departure_time`, `arrival_time`, `travel_time`, `flag_trip_aborted`, `link`, `traveled_route` |
| `CppCsr` | `bindings.cpp` and `DTAsolvers_cpp_adapter.py`: routes as flat arrays with offsets (`routes_to_csr`, `to_csr`, `batch_enforce_routes_csr`, `make_od_route_set_store`), conversion between ids and names, `route_log` and `cost_log` |
| `CppDemand` | demand functions of the C++ mode, with the `attribute` of the vehicles: `adddemand`, `adddemand_point2point`, `_area2area`, `_nodes2nodes`, `_area2area2`, `_nodes2nodes2`, `get_nearest_node`, `get_nodes_in_area` (uxsim_cpp_wrapper.py:995–1074, 1424–1428). Nodes by number; random draws are arguments; the record of the calls and warnings are left out |
| `CppRequest` | requests to the C++ mode: `CppVehicle.enforce_route`, `set_links_prefer`, `set_links_avoid`, `add_dest(s)`, `CppNode.signal` setter and `override_signal`, link lists of `addVehicle`, with the copies that the Python objects keep (uxsim_cpp_wrapper.py:90–170, 683–718, 952–993, 1243–1245). `set_avoid`, which is ignored there, and links of other worlds in `addVehicle` are left out |
| `CppEntries` | `vehicles_enter_log` and `average_travel_time_between` of links, `CppRoute` and `defRoute` in the C++ mode (uxsim_cpp_wrapper.py:404–408, 729–766, 1369–1392, 1430–1433; traffi.cpp:1965–1983). The fallback for old engines and a speed limit of 0 are left out |
| `CppShown` | Flow attributes of link objects in the C++ mode: `CppLink.__init__`, `change_free_flow_speed`, `change_jam_density`, `_read_from_cpp` (uxsim_cpp_wrapper.py:187–251, 458–482) on top of `CppBuild`. Names, the Edie grid and a jam density of 0 are left out |
| `Csv` | `load_scenario_from_csv` and the three `generate_…_from_csv` of both modes (uxsim.py:2653–2720, uxsim_cpp_wrapper.py:1435–1466) over any implementation of `addNode`, `addLink`, `adddemand`. Files are lists of rows; `float` is a parameter; infinite numbers and `nan` are left out |
| `Gps` | `Analyzer.gps_like_log_to_pandas` (analyzer.py:1650–1667) for both modes, `CppVehicle.get_xy_coords` (uxsim_cpp_wrapper.py:720–725). The name column is the index of the vehicle; node coordinates of the C++ mode are a parameter |
| `Spec/Agree` | No new code: views of links, vehicles and nodes that read the same data off the Python world (`State`) and the C++ world (`CppState`); `Props/Agree` relates the rules of `Sim` and `CppSim`, `Props/AgreeStep` the first four stages of a time step, `Props/AgreeVeh` the update of one vehicle, `Props/AgreeBuild` the calls of `Build` and `CppBuild` with the arguments the wrapper passes on (`Spec/AgreeBuild`; uxsim_cpp_wrapper.py:52–54, 73–75, 199, 222–232, 1004–1005) and the end of the preparation, `Props/AgreeFinal` (finalize_scenario with the automatic length and node capacities) |
| `CppSolve` | `DTAsolvers_cpp_adapter.py`: the loops over the days of `CppSolverDUE` and `CppSolverDSO_D2D`; the worlds built by `func_World`, the route sets and the average travel time are inputs |

The C++ engine is a second model in the namespace `UX.Cpp`, independent of the Python one. `double` is `ℚ`
with `fl` again; each node and link has its own random stream. The parallel loops of a time step take a
schedule (`Sched`), an order of their iterations; a data race inside one iteration is not modelled. `CReach`
(`CppBuild`) is the set of worlds that calls of the bindings can produce. Threads (C80) are modelled as orders of
atomic iterations; that iterations touch separate objects is proved on the model (`CppLocal`), not on the memory of the
machine. Chunks (C81) need a monotone `fl` and `0 ≤ delta_t`. Counts (C82) need `ExactCounts`: multiples of `delta_n`
are not rounded. `CppActs` splits a time step into elementary actions; `CppEvents` adds the serial parts, so that
every run, also one that throws, is a sequence of events; later invariants are checked event by event. The field
`eager` of a vehicle is a ghost: the time step and state of each log entry when it is made, read only by C89 and (in proofs) C90–C92.
`CppRandom` models `enumerate_k_random_routes_cpp` (C112); the numbers drawn are a function of iteration and link.

### What is not modelled

* User functions and attributes, printing, plotting, GUI, images, pandas formatting, pickling
  (`World.copy/save`), CSV import; of the OSM imports the download, the simplification, `osm_network_to_World` of
  `OSMImporter` and `auto_rename`.
* Of the C++ engine: the Python adapters (`uxsim_cpp_wrapper.py`) other than the registries of vehicles, the clock,
  `exec_simulation` and the cached vehicle logs of `CppWorld` (`Model/CppWrap.lean`, C108–C110) the queries of
  `CppLink` (`Model/CppQuery.lean`, C113) and the status of `CppVehicle` (`Model/CppVeh.lean`, C114); `add_dest` of
  `CppVehicle` changes only a Python list that the engine does not read,
  null pointers from unknown names (but see `CppNames`, C117), nodes or links added after `initialize_adj_matrix`.
* Of the analyzer: standard deviations.
* `auto_rename=True`; `eular_dx`; `meta_data` of scenario files.
* Calls outside the model (no claim is made for histories containing them): nodes and links added after
  `finalize_scenario`, jam density changed while vehicles are on the link, negative numbers of lanes, several
  `TaxiHandler`s in one world, intervals of 0 for logging or travel-time updates, direct writes to attributes
  other than `capacity_in`, `capacity_out` and node capacities.
* Solvers: `func_World`, the simulations inside the loops, temperatures and repair costs are arbitrary inputs.
* `Link._speed`'s cache and `numpy`'s summation order: a mean is rounded once.
* In `adddemand_point2point` etc. a missing nearest node (`None`) is an error of the model.

## Layout

* `Verif/Model/*` – the model.
* `Verif/Spec/*` – definitions used only to state properties: histories (`Trace`), route choice, scenario
  validity, and so on. They read the state and the trace, not the helper functions of the model.
* `Verif/Proofs/*` – lemmas and invariants. The step is decomposed into primitive changes (`Prim`, `PStar`);
  `Prim.shape` (`Proofs/Shape.lean`) says exactly what each of them does, and invariants are proved per shape.
* `Verif/Props/*` – theorems `Cnn_…`, each with a concrete history that meets its hypotheses beside it.
* `properties.jsonl` – the claims; `MANIFEST.json` – status and theorems per claim; `seeded/LOG.jsonl` – wrong
  programs the theorems were tested against.

`Cnn_…_partial` proves a part of the claim, `Cnn_…_false` refutes the claim (or a part) for the code as it is,
with a concrete history.

## Assumptions used in statements

* `PhysOK` – `FlOK`, time step ≥ 0, lengths ≥ 0 and representable, free-flow speeds and jam spacings ≥ 0.
* `ExactOK u0` – `PhysOK`, exact arithmetic, free-flow speeds `u0 > 0` never changed.
* `NoStale` – taxis never receive the same destination twice in a row (C11, C39).
* `InOK`, `OutOK`, `FlowOK` – exact arithmetic and constant capacities for the budgets C15–C17.
* `Valid`/`Plain` (C34) – conditions under which no exception is raised.
* `TrajOK u0` (C55, C56) – `ExactOK u0`, no self-loops, every step logged, no taxis.
* `Alone` (C50) – no other vehicle uses the link and nothing restricts it.

## Where the code disagrees with the claims

Each has a theorem `…_false` unless marked (note).

* C12: a self-loop taken last is repeated in the route log.
* C15: the inflow budget is refilled by whole steps, so short windows can exceed capacity·time by one refill.
* C19: a phase of length g lasts ⌊g/Δt⌋ + 1 steps; a shorter plan set by `override_signal` can raise `IndexError`.
* C20: offsets beyond a cycle are not reduced; a plan `[0, 0]` never ends.
* C21: `until_t`/`duration_t` run one step more than t/Δt; taxi stamps differ when a run is split.
* C24: windows not aligned with Δt and volumes not multiples of DELTAN lose vehicles.
* C30: the gradual update with weight > 1 leaves [0, 1].
* C32: a closed parallel link closes all of them for route search.
* C33: `q_star`, `k_star` are not refreshed by `change_free_flow_speed`.
* C34: vehicles created before a link have no preference entry for it (`KeyError`).
* C35, C36: the movement carried over a node is not counted in the distance travelled.
* C37: `od_analysis` is never refreshed after its first call.
* C38: waiting vehicles count as moving samples in the running mean without changing it.
* C39: requests with equal origin and destination.
* C41: default `capacity_in_remain` differs after loading, `addVehicle` is not saved, mixed demand functions are
  reordered, the offset of `override_signal` is only recorded.
* C44: the first route is forced and the gap is not the gap to the best route.
* C45: GA returns the last simulated world, not the best; small populations mutate the initial solution.
* C46: ALNS may start outside its domains, its objective has the wrong sign for unfinished trips, and its
  shortest-route repair never updates the minimum; the congested-link operator raises if no vehicle is on such a link.
* C48: nodes further than 100 km away are never nearest.
* C49: vehicles added during the simulation have no rows for earlier steps.
* C52: shares are truncated per pair.
* C55: consecutive passes over a link from a node to itself become one trajectory.
* C58: the average travel time is a mean over time steps, not over vehicles.
* C60: vehicles still in an area are subtracted from those that have left it; times and speeds can be negative.
* C62: a vehicle that has just started to wait is shown at home; vehicles without log rows raise `IndexError`.
* C63: the default `group_names` raise `AttributeError`; vehicles are not multiplied by DELTAN as elsewhere;
  detour ratios can be below 1.
* C64: time spent standing at the very end of a link is not counted; `mfd_to_pandas` has one row per set of links asked
  for instead of one per interval; with cells not dividing the link the rest of the link is left out.
* C65: `assign_taxi` ignores the requested time, so a request assigned by the user before it is due can have negative
  waiting and travel times. `print_stats` divides by zero when no taxi exists (`C65_false`).
* C66: of parallel links the last one created counts, not the fastest, so delays can be negative; a link closed at the
  time of the analysis can make the delay minus infinity. A free-flow speed of 0 raises `ZeroDivisionError`.
* C67: in the mean distances between areas, vehicles whose pair of nodes has no finished trip count as 0; an empty
  area raises `IndexError` if no names are given.
* C68: `dist_record` lookups raise `KeyError` if the update time is not a whole number of steps, or after the last full
  step; `return_time` returns the number of the interval instead of a time; the tables average over parallel links.
* C69: a link of length 0 is dropped by the sparse matrix.
* C70: with parallel links all of them are listed in one "route", whose cost is that of the last one.
* C71: without links the average is divided by zero; of parallel links the last one is used, also if slower.
* C72: an index beyond the simulated time, in the middle of the estimate, is swallowed and the answer is 0.
* C73: `departure_time_in_second` is `departure_time * DELTAT` also when `departure_time` is in seconds, so vehicles added
  with seconds have entries at wrong times; `IndexError` if `TMAX` is not a whole number of steps, `ValueError` for steps
  below one second; of parallel links that arrive in the same interval the last one counts.
* C74: a second grid in the same world raises `ValueError`, as its names are taken.
* C75: `departure_time_in_second` is wrong for departures given in seconds (see C73).
* C78: in the C++ engine, as in the Python one, closing one of two parallel links closes both for route search.
* C82: if `main_loop` throws and is called again, the failed time step is made again from the counts of the step
  before, so vehicles that moved in the failed step are in the queues but no longer in the curves (`C82_exception_false`).
* C83: `trips_completed` (and the printed "Trips completion") of the C++ engine counts aborted trips
  (`C83_trips_false`).
* C86: as in Python (C19), a green time that is a multiple of the time step lasts one time step longer than given;
  C85: without an inflow capacity argument the inflow counter of a new link starts at `capacity*2`, without `delta_t`.
* C87: `change_jam_density` on a link with vehicles can leave them closer than the new spacing (`C87_jam_false`).
* C90: `distance_traveled` omits what is driven on a new link in the time step of entering it (`C90_false`).
* C91: with links from a node to itself enter logs lack entries (`C91_false`).
* C92: `enforce_route` during a trip counts the links already entered, so a correct remaining way makes the
  simulation throw (`C92_false`).
* C93: vehicles that enter a link in the same time step share one travel time, that of the last of them to enter and
  leave, so the cost of the route driven can be far from what the vehicle experienced (`C93_mine_false`); with toll
  series the route driven costs more than the same route as an alternative (`C93_agree_false`).
* C94: a vehicle in a queue is not charged for followers that wait as well but leave nobody behind
  (`C94_behind_false`).
* C95: with a series of tolls a vehicle is counted as changing to the route it drove
  (`C95_moves_false`); without vehicle logs travelled routes are empty and cost 0, so that nobody changes and nobody
  is given a route (`C95_nolog_false`).
* C96: `CppSolverDSO_D2D.solve` called a second time on the same object compares with `None` and throws if the first
  day is complete (`C96_again`, `C96_twice_false`); its solution can be the first day, whose routes need not be in the
  route sets given by the user (`C96_sets_false`).
* C99: just after a transfer the logged speed can be above the limit of the link it is logged on
  (`C99_own_limit_false`).
* C100: for the same reason the printed average speed ratio can be above 1 (`C100_ratio_one_false`).
* C101: the random number 0 selects a first link of preference 0 (`C101_zero_false`); a link both preferred and
  avoided makes a run throw although another one is not to be avoided (`C101_clash_false`).
* C102: in gradual mode with `duo_update_time` shorter than a time step, preferences can be negative and above 1
  (`C102_gradual_false`).
* C103: without `hard_deterministic_mode` equal calls with other streams send a vehicle over another link
  (`C103_mode_false`); this is intended.
* C104: C104: in the C++ engine a vehicle that arrives side by side with the first vehicle of its link (several
  lanes) can be held up in a step in which the first one leaves, although the link it wants is empty: the slots
  of `transfer` are served in a random order fixed beforehand, and a slot that finds the first vehicle wanting
  another link is lost (`C104_second_false`).
* C105: movement is lost when a vehicle enters a link shorter than its remainder: it is put at the end of that
  link and the rest of the remainder is dropped (`C105_short_false`).
* C106: C106: a vehicle that waits at the end of a link (red light, full link ahead) keeps a rest of a whole
  time step of free-flow movement, because `carfollow` computes `move_remain` also for standing vehicles. When
  it may go it is put `u*DELTAT` ahead on the next link and then moves by another `u*DELTAT` in the same step,
  twice the free-flow speed (`C106_twice_false`). The rest that does not fit on a short next link is lost
  (`C106_short_false`).
* C107: C107: `C107_second_false`: on a link of two lanes the vehicle next to the first one can stay although
  its next link is empty and has capacity; the slots of the links are shuffled, and if the slot for its next
  link comes before the one that lets the first vehicle go, it is lost.
* C108: C108: In C++ mode a vehicle with a custom name that is a number disappears from `VEHICLES` as soon as
  the vehicle with that number is made (`C108_names_false`; the Python engine raises instead). With rounding one
  call of `addVehicle` can make two vehicles (`C108_two_false`; with doubles: `reaction_time=1.1, deltan=1`,
  departure time 33, or the default parameters and departure time 4.999999999999999) or none, ending with
  `IndexError` (`C108_none_false`; with doubles: `reaction_time=1.1, deltan=1`, departure time 11).
* C109: C109: In C++ mode `exec_simulation(duration_t2=W.DELTAT)` can make no time step and return 0, because
  the end time is converted to seconds and back, so that `while W.check_simulation_ongoing():
  W.exec_simulation(duration_t2=W.DELTAT)` never ends (`C109_stuck_false`; with doubles: `reaction_time=0.6,
  deltan=1` at time step 31).
* C110: C110: In C++ mode a vehicle log that is read during the simulation is never updated afterwards: at the
  end it lacks the rest of the trip, and so do analyses that use it (`C110_stale_false`, `C110_frozen`).
* C111: C111: `log_s` of a vehicle behind one with a smaller id is not the distance of the two vehicles at the
  logged time: the position of the vehicle ahead is the one after the time step, its own the one before
  (`C111_distance_false`).
* C112: `enumerate_k_random_routes_cpp` uses only the last of several parallel links (`C112_parallel_false`),
  does not see links of length 0, so that nodes connected by such a link have no entry
  (`C112_zero_length_false`), and does not end if 0 is drawn for the only link in every other iteration
  (`C112_zero_draw_false`; the distribution is on [0, 100)).
* C113: during the simulation `arrival_count`, `departure_count` and `num_vehicles_t` of the C++ mode give 0 for
  the present and later times (the Python engine gives the last counts), so `inflow_between` up to the present
  time can be negative; `average_speed` uses the actual instead of the instantaneous travel time, unlike the
  Python engine.
* C114: after reading any vehicle log during the simulation, `traveled_route` of a vehicle that arrives later
  says that it has not arrived, while `state` and `arrival_time` say that it has (stale cache, C110).
* C115: a link from a node to itself is merged into itself (`delete_node_map[n] = n`): the node is deleted, its
  links stay. One round returns links without end nodes, the next raises `KeyError` (`C115_loop_false`). Also
  the default of 5 rounds does not merge all nodes joined by short links: of a star one node per round
  (`C115_short_false`).
* C116: `import_osm_data` looks for "mortorway" in the road type: `default_number_of_lanes_mortorway` and
  `default_maxspeed_mortorway` never apply to a motorway, which gets the default of other roads (1 lane, 30
  km/h) (`C116_motorway_false`).
* C117: in the C++ mode `addNode(..., auto_rename=True)` with a used name always raises `RuntimeError`: the
  engine is given the old name and asked for the new one; afterwards the old name means different nodes in
  Python and in the engine (`C117_rename_false`; `OSMImporter` and `OSMImporter2` rely on it). A link to an
  unknown node raises after it was put into `LINKS`: if the script goes on, numbers of links in Python and the
  engine differ (`C117_unknown_false`).
* C118: `_attach_osm_nodes_links` looks up a road type by the first dictionary key that it contains, so a user's
  setting for `motorway_link` is never used (`C118_key_false`); the setting `others` is halved for two-way roads
  while those of the types are not (`C118_others_false`); `to_node = links.at[i, "from_node"]` makes the
  estimate of a missing type ignore the links that begin at the far end (`C118_type_false`).
* C119: `_convert_flat_result_to_names` pairs the keys of `VEHICLES` with the order of the engine. The comment
  at uxsim_cpp_wrapper.py:984 says that renaming keeps this order because the new vehicle is the last entry;
  when rounding makes `addVehicle` create two vehicles the first of them is renamed and moves behind the second,
  so `route_log` and `cost_log` swap the two (`C119_log_false`).
* C120: in the C++ mode `adddemand_area2area2` and `adddemand_nodes2nodes2` accept an `attribute` and drop it
  (uxsim_cpp_wrapper.py:1045–1074), and `adddemand_area2area2` can generate trips from a node to itself although
  other destinations exist; the Python mode does neither (uxsim.py:2254–2259). `C120_attr_false`,
  `C120_self_false`.
* C121: in the C++ mode `enforce_route`, `set_links_prefer` and `set_links_avoid` with an unknown link name are
  silently ignored by the engine, because `get_link` returns `None` and the `AttributeError` is swallowed
  (uxsim_cpp_wrapper.py:689–707); the Python vehicle shows the list as if it was set (`C121_unknown_false`).
  `add_dest` and `add_dests` are accepted and never reach the engine (`C121_dest_false`; the Python mode raises
  `ValueError` for such vehicles). `override_signal` that raises an exception has already replaced the plan
  (`C121_raise`), and a link that no group lists keeps its old phases, so that it may have green in phases whose
  group does not list it (`C121_unlisted_false`; also in the Python mode). `links_prefer` and `links_avoid` of a
  vehicle made by `addVehicle` read `[]` although the engine has them (`C121_shown_false`).
* C122: `vehicles_enter_log` is a dict keyed by time, so of several vehicles that enter a link in the same time
  step only the one with the largest index is kept, and `average_travel_time_between` is a mean over time steps,
  not over vehicles (`C122_vehicles_false`). In C++ mode it is filled only at the end of the simulation: during
  the simulation the average is the free-flow travel time even in a jam, other than in the Python engine
  (`C122_running_false`).
* C123: in the C++ mode `jam_density_per_lane` of a link keeps its first value after `change_jam_density`; a
  link with `free_flow_speed=0` raises ZeroDivisionError (`k_star`) after the engine and the name tables have
  it; assigning to `link.u` changes the Python object only.
* C124: `generate_demand_from_csv` has a bare `except`: a volume that is not a number, or any exception of
  `adddemand` with a volume, leads to a second call without the volume (in the state the first one left), e.g. a
  row with start = end and a volume adds nothing and raises nothing; a blank line in any of the CSV files raises
  IndexError.
* C125: `gps_like_log_to_pandas`: a vehicle that ends its trip in the step in which it reaches its destination
  gets a surplus row for its last time and place with speed -1 (C125_extra_false); with a living vehicle added
  during the simulation the call raises IndexError (C125_late_false); in the C++ mode `get_xy_coords(t)` ignores
  `t`, so all rows of a vehicle show its current place, and its origin once it has arrived (C125_cpp_place,
  C125_cpp_false).
* C126: the rules agree on all traffic that a user can make with nonnegative parameters, but the bounds are
  real: the C++ engine takes a link capacity of 10e9 or more as unlimited, clamps positions of vehicles at the
  lower end where the Python engine does not, and does not advance the clock of a signal plan with one phase.
* C127: the agreement covers the first four stages of a step. The fifth stage (updates of vehicles) is left out
  because the order matters there: the Python engine updates vehicles in order of creation, the C++ engine link
  by link in queue order, and the end of a trip changes the queue that the next update looks at.
* C128: two differences between the engines are proved. C128_order_false: two vehicles reach the end of a link
  of two lanes side by side, the one created later stands first in the queue; the Python engine updates in order
  of creation and ends the trip of the other vehicle one step later, the C++ engine goes along the queue and
  ends both. C128_departure_false: a departure time in seconds between two time steps is rounded down in the
  Python engine and up in the C++ engine.
* C129: the restrictions are needed. C129_link_false: a link given capacity_out=-1 has that capacity in the
  Python engine and twice its own capacity in the C++ engine; one given jam_density=0 raises ZeroDivisionError
  in the Python engine and silently gets 0.2 in the C++ engine.
* C130: a node given `number_of_lanes` but no `flow_capacity` has its lanes set to `None` by the Python engine
  (uxsim.py:131) and keeps them in the C++ engine. With `adjust_node_capacity` the first then computes the lanes
  from the capacity, the second uses the given ones (`C130_lanes_false`: 2 against 7).
* (note) with `eular_dx` given, `edie_dx` is read before it is set; `int(length/edie_dx)` may lose a cell in floats.
* (note) `links_avoid` covering every outgoing link, negative preferences and `u = 0` raise errors; two requests
  of one taxi with the same origin overwrite each other's event; equal default vehicle names collide;
  `vehicles_enter_log` loses vehicles entering at the same time; `log_s` may use the leader's position of the
  same step; the day-to-day solver compares averages and returns `None` if no day completes all trips.

{
 "claims": [
  {
   "property": "C01",
   "status": "proved",
   "theorems": [
    "UX.C01_located",
    "UX.C01_lists",
    "UX.C01_no_strangers"
   ],
   "note": "Any history of API calls and steps (nodes and links added before finalization), any rounding."
  },
  {
   "property": "C02",
   "status": "proved",
   "theorems": [
    "UX.C02_totals",
    "UX.C02_balance",
    "UX.C02_query"
   ],
   "note": "Exact arithmetic is not needed: counts are integers in the code as long as deltan is an integer."
  },
  {
   "property": "C03",
   "status": "proved",
   "theorems": [
    "UX.C03_points",
    "UX.C03_monotone",
    "UX.C03_no_crossing",
    "UX.C03_step",
    "UX.C03_history"
   ],
   "note": "Whole stored history, per step and per time index, tied to the event history."
  },
  {
   "property": "C04",
   "status": "proved",
   "theorems": [
    "UX.C04_fifo"
   ],
   "note": "Stated on the ghost event history: entered = left ++ present."
  },
  {
   "property": "C05",
   "status": "proved",
   "theorems": [
    "UX.C05_bounds",
    "UX.C05_forward"
   ],
   "note": "for every rounding that is monotone and keeps zero and its own results (PhysOK)"
  },
  {
   "property": "C06",
   "status": "proved",
   "theorems": [
    "UX.C06_spacing",
    "UX.C06_spacing_single",
    "UX.C06_order"
   ],
   "note": "for every such rounding; single-trip worlds without further assumption; worlds with taxis assume that no taxi waits with a stale choice (destination list with a node twice in a row), because there the code itself can break the spacing"
  },
  {
   "property": "C07",
   "status": "proved",
   "theorems": [
    "UX.C07_lane",
    "UX.C07_leader",
    "UX.C07_assertion",
    "UX.C07_assertion_ticks",
    "UX.C07_assertion_exec"
   ],
   "note": "Lane numbers, leaders, and the assertion: no time step and no exec_simulation call from any reachable world fails with AssertionError."
  },
  {
   "property": "C08",
   "status": "proved",
   "theorems": [
    "UX.C08_step",
    "UX.C08_history"
   ],
   "note": "Per API call / time step, and over whole histories. A vehicle can depart and finish in the same step; the departure event witnesses that it ran in between."
  },
  {
   "property": "C09",
   "status": "proved",
   "theorems": [
    "UX.C09_records",
    "UX.C09_exact",
    "UX.C09_arrival_step"
   ],
   "note": "For any rounding; C09_exact for exact arithmetic."
  },
  {
   "property": "C10",
   "status": "proved",
   "theorems": [
    "UX.C10_finish",
    "UX.C10_abort",
    "UX.C10_only"
   ],
   "note": "Aborting taxis are possible in the code; for them the destination condition is not claimed (it can change afterwards). Position at the link end: see C10_position if listed."
  },
  {
   "property": "C11",
   "status": "proved",
   "theorems": [
    "UX.C11_path",
    "UX.C11_end",
    "UX.C11_no_raise"
   ],
   "note": "All vehicles including taxis. The log never shows the repeated use of one link in a row (a taxi with a repeated destination re-enters its current link), so the path in the log is connected for taxis too."
  },
  {
   "property": "C12",
   "status": "partial",
   "theorems": [
    "UX.C12_prefix_partial",
    "UX.C12_stays",
    "UX.C12_self_loop_false"
   ],
   "note": "Proved for routes that do not use the same link twice in a row, with the route fixed from departure on. For routes with a link twice in a row the property is false of the code (C12_self_loop_false)."
  },
  {
   "property": "C13",
   "status": "proved",
   "theorems": [
    "UX.C13_depart",
    "UX.C13_choice",
    "UX.C13_pass",
    "UX.C13_two_steps"
   ],
   "note": "Departures, choices at the end of every step, and passages. Taxis whose current destination is the node they stand at are exempt (the code keeps the previous choice)."
  },
  {
   "property": "C14",
   "status": "proved",
   "theorems": [
    "UX.C14_choice",
    "UX.C14_two_steps"
   ],
   "note": "Choices at the end of every step, and passages over two consecutive steps."
  },
  {
   "property": "C15",
   "status": "partial",
   "theorems": [
    "UX.C15_inflow",
    "UX.C15_inflow_partial",
    "UX.C15_short_step_false"
   ],
   "note": "exact arithmetic; proved for every history with burst DELTAN*lanes + capacity_in*max(1,DELTAT), which is the stated one for DELTAT>=1 (C15_inflow_partial); for DELTAT<1 the stated burst is exceeded (C15_short_step_false): capacity_in_remain starts without the factor DELTAT. Vehicles are counted as platoons times DELTAN"
  },
  {
   "property": "C16",
   "status": "proved",
   "theorems": [
    "UX.C16_outflow"
   ],
   "note": "exact arithmetic; burst DELTAN*lanes + capacity_out*DELTAT; capacity may be changed by the user, c bounds it over the history"
  },
  {
   "property": "C17",
   "status": "proved",
   "theorems": [
    "UX.C17_node_flow"
   ],
   "note": "exact arithmetic; burst DELTAN*lanes + flow_capacity*DELTAT; also for capacities set by adjust_node_capacity at finalization"
  },
  {
   "property": "C18",
   "status": "proved",
   "theorems": [
    "UX.C18_green",
    "UX.C18_time"
   ],
   "note": "Per step, using the phase in force after the step (phases change only before transfers)."
  },
  {
   "property": "C19",
   "status": "partial",
   "theorems": [
    "UX.C19_valid",
    "UX.C19_cyclic",
    "UX.C19_schedule",
    "UX.C19_duration_partial",
    "UX.C19_duration_false",
    "UX.C19_override_false"
   ],
   "note": "proved: index valid while the number of phases is unchanged, cyclic order, closed-form schedule (exact arithmetic). False as stated: a phase lasts the smallest number of steps LONGER than its green time (C19_duration_false); replacing a plan by a shorter one without reset makes the index invalid (C19_override_false)"
  },
  {
   "property": "C20",
   "status": "partial",
   "theorems": [
    "UX.C20_offset_partial",
    "UX.C20_offset_old",
    "UX.C20_terminates",
    "UX.C20_large_offset_false",
    "UX.C20_zero_plan_false"
   ],
   "note": "exact arithmetic, nonnegative green times of positive sum: terminates for every offset; position correct for signal_offset <= cycle and every nonnegative signal_offset_old. False for larger offsets (C20_large_offset_false); plan [0,0] loops forever (C20_zero_plan_false)"
  },
  {
   "property": "C21",
   "status": "partial",
   "theorems": [
    "UX.C21_steps_partial",
    "UX.C21_split_partial",
    "UX.C21_split_exact_partial",
    "UX.C21_unfinalized",
    "UX.C21_stamps_false"
   ],
   "note": "Split runs equal the single run in everything except the boarding/alighting time stamps of trip requests (exactly equal if no trip request is assigned). C21_stamps_false: W.TIME is one step behind inside a run but not in the first step after a split, so taxi stamps do differ."
  },
  {
   "property": "C22",
   "status": "proved",
   "theorems": [
    "UX.C22_return",
    "UX.C22_done",
    "UX.C22_steps",
    "UX.C22_ongoing",
    "UX.C22_ongoing_exec"
   ],
   "note": "Also shows the exact number of steps: duration_t and until_t execute one step more than t/DELTAT, duration_t2 exactly t/DELTAT."
  },
  {
   "property": "C23",
   "status": "proved",
   "theorems": [
    "UX.C23_seed",
    "UX.C23_exec"
   ],
   "note": "Any number of steps, and exec_simulation; exceptions raised are also the same."
  },
  {
   "property": "C24",
   "status": "partial",
   "theorems": [
    "UX.C24_flow",
    "UX.C24_volume_flow",
    "UX.C24_count",
    "UX.C24_window_partial",
    "UX.C24_window_aligned",
    "UX.C24_volume",
    "UX.C24_no_flow",
    "UX.C24_succeeds",
    "UX.C24_window_false",
    "UX.C24_volume_false"
   ],
   "note": "exact arithmetic; counts, spreading, order, success and the aligned window are proved in full; the claim about [t_start, t_end) is false for a start that is not a whole step (C24_window_false), where C24_window_partial gives t_start minus one step; C24_volume_false shows the aligned-window condition is needed"
  },
  {
   "property": "C25",
   "status": "proved",
   "theorems": [
    "UX.C25_distinct",
    "UX.C25_lookup",
    "UX.C25_used_name",
    "UX.C25_ids"
   ],
   "note": "auto_rename=False. Distinctness, lookup, refusal of used names, ids in order."
  },
  {
   "property": "C26",
   "status": "proved",
   "theorems": [
    "UX.C26_queue_order",
    "UX.C26_not_early",
    "UX.C26_queue_not_early"
   ],
   "note": "Queue order and no early departure, on the ghost event history."
  },
  {
   "property": "C27",
   "status": "proved",
   "theorems": [
    "UX.C27_storage",
    "UX.C27_storage_single"
   ],
   "note": "exact arithmetic"
  },
  {
   "property": "C28",
   "status": "proved",
   "theorems": [
    "UX.C28_pass",
    "UX.C28_finish",
    "UX.C28_recorded"
   ],
   "note": "exact arithmetic, free-flow speeds not changed during the run"
  },
  {
   "property": "C29",
   "status": "proved",
   "theorems": [
    "UX.C29_speed"
   ],
   "note": "exact arithmetic, positive time step"
  },
  {
   "property": "C30",
   "status": "proved",
   "theorems": [
    "UX.C30_range",
    "UX.C30_path",
    "UX.C30_between",
    "UX.C30_gradual_false"
   ],
   "note": "Range for all reachable worlds, weight after every update, no change between updates. In gradual mode the step must not exceed DUO_UPDATE_TIME; otherwise the property is false (C30_gradual_false). Routing arithmetic exact."
  },
  {
   "property": "C31",
   "status": "proved",
   "theorems": [
    "UX.C31_search",
    "UX.C31_step"
   ],
   "note": "The shortest-path routine is uninterpreted; its specification is Spec/RouteChoice.lean ShortestPaths and is a hypothesis, only for matrices whose edges are the open hops of the network. Reachability is over links of the network (a pair of nodes with a closed parallel link is not a hop, see C32)."
  },
  {
   "property": "C32",
   "status": "partial",
   "theorems": [
    "UX.C32_mean_partial",
    "UX.C32_noise",
    "UX.C32_closed_blocks",
    "UX.C32_search",
    "UX.C32_false"
   ],
   "note": "The mean over parallel links holds when all are open. The second half of the property is false in the code: one closed link makes the pair of nodes unconnected for route search (C32_closed_blocks, C32_false)."
  },
  {
   "property": "C33",
   "status": "partial",
   "theorems": [
    "UX.C33_diagram_partial",
    "UX.C33_new_link",
    "UX.C33_star_kept",
    "UX.C33_negative_ignored",
    "UX.C33_change",
    "UX.C33_star_stale"
   ],
   "note": "exact arithmetic; every link with positive speed and jam density is one triangle at all times with critical density capacity/u; the stored attributes q_star and k_star are right from creation until a change call (C33_new_link, C33_star_kept) and stale afterwards (C33_star_stale), so the claim about k_star is false after a change"
  },
  {
   "property": "C34",
   "status": "partial",
   "theorems": [
    "UX.C34_tick_partial",
    "UX.C34_ticks_partial",
    "UX.C34_exec_partial",
    "UX.C34_exec_first_partial",
    "UX.C34_late_link_false"
   ],
   "note": "Proved for every history of valid calls (Valid): single-trip and taxi vehicles, no enforced routes or links to avoid, links before vehicles, taxis with one destination at a time, signal plans not shortened under the running phase, nonzero speeds, update weight in [0,1]; then no step and no exec_simulation call up to the horizon raises. Without links-before-vehicles it is false of the code: C34_late_link_false (KeyError)."
  },
  {
   "property": "C35",
   "status": "partial",
   "theorems": [
    "UX.C35_distance_partial",
    "UX.C35_first_link",
    "UX.C35_false"
   ],
   "note": "false of the code: C35_false; proved: never more, and short by at most one free-flow step per node passed; exact until the first node"
  },
  {
   "property": "C36",
   "status": "partial",
   "theorems": [
    "UX.C36_all",
    "UX.C36_completed",
    "UX.C36_travel_time",
    "UX.C36_distance_partial",
    "UX.C36_distance_false"
   ],
   "note": "Trip counts, completed counts and travel times for every reachable world. Total distance is false in the code: vehicles of an origin-destination pair without a finished trip are left out (C36_distance_false)."
  },
  {
   "property": "C37",
   "status": "partial",
   "theorems": [
    "UX.C37_first_partial",
    "UX.C37_settled_partial",
    "UX.C37_false"
   ],
   "note": "The reported statistics are those of the first request. They are never refreshed, so the property is false of the code (C37_false)."
  },
  {
   "property": "C38",
   "status": "partial",
   "theorems": [
    "UX.C38_count",
    "UX.C38_mean_partial",
    "UX.C38_false"
   ],
   "note": "The sample count is the number of logged rows; the average is the exact mean when no waiting vehicle is logged. With waiting vehicles the code does not lower the average: C38_false is a concrete counterexample."
  },
  {
   "property": "C39",
   "status": "partial",
   "theorems": [
    "UX.C39_pending_or_assigned",
    "UX.C39_assigned_once",
    "UX.C39_records",
    "UX.C39_times",
    "UX.C39_random",
    "UX.C39_nearest",
    "UX.C39_one_at_a_time_partial",
    "UX.C39_on_the_way_partial",
    "UX.C39_same_node_false"
   ],
   "note": "Pending xor assigned, assigned at most once, request time respected, vacancy, nearest choice, time order: all proved for every history. 'A busy taxi gets no second request' is proved for histories using the provided handlers and requests whose origin and destination differ. For origin = destination it is false: the passenger never arrives and the simulation raises AttributeError (C39_same_node_false)."
  },
  {
   "property": "C40",
   "status": "proved",
   "theorems": [
    "UX.C40_create",
    "UX.C40_travel_time"
   ],
   "note": "Creation for any rounding; travel time in exact arithmetic."
  },
  {
   "property": "C41",
   "status": "partial",
   "theorems": [
    "UX.C41_network",
    "UX.C41_load_partial",
    "UX.C41_same_partial",
    "UX.C41_simulation_false",
    "UX.C41_vehicles_false",
    "UX.C41_order_false",
    "UX.C41_signal_false"
   ],
   "note": "Network: identical after reload except for the unused inflow capacity of the first step. Demand calls: identical world if the calls of each demand function are consecutive; with explicit capacity_in the whole world is identical. The full claim is false of the code: simulation (default capacity_in), addVehicle not saved, mixed demand calls regrouped, overridden signals; each with a proved counterexample."
  },
  {
   "property": "C42",
   "status": "proved",
   "theorems": [
    "UX.C42_value",
    "UX.C42_monotone",
    "UX.C42_nonneg",
    "UX.C42_inflow"
   ],
   "note": "Time-indexed count queries between steps, as read by the user."
  },
  {
   "property": "C43",
   "status": "proved",
   "theorems": [
    "UX.C43_average",
    "UX.C43_total",
    "UX.C43_resume"
   ],
   "note": "C43_average: the day kept has the least average travel time among days with all trips completed; C43_total: with the analyzer statistics of the worlds and a common number of trips it has the least total travel time; C43_resume: repeated calls on one solver object."
  },
  {
   "property": "C44",
   "status": "partial",
   "theorems": [
    "UX.C44_day",
    "UX.C44_never_worse_partial",
    "UX.C44_costs",
    "UX.C44_forced_false",
    "UX.C44_gap_false"
   ],
   "note": "C44_day gives the exact route specified for every vehicle and the swap counts; C44_never_worse_partial holds for vehicles whose route is in the choice set. Not covered because false: with user-given route_sets a vehicle off the set is forced onto the first route (C44_forced_false); the reported time gap is not the gap to the best route (C44_gap_false). C44_costs ties the costs to the simulated world."
  },
  {
   "property": "C45",
   "status": "partial",
   "theorems": [
    "UX.C45_objective",
    "UX.C45_objective_order",
    "UX.C45_crossover",
    "UX.C45_mutate",
    "UX.C45_tournament",
    "UX.C45_generation",
    "UX.C45_best_kept",
    "UX.C45_monotone",
    "UX.C45_intermediate_partial",
    "UX.C45_initial",
    "UX.C45_returned_false"
   ],
   "note": "Operators, feasibility, elitism and monotone best fitness proved for all random outcomes; W_intermid_solution is the best genome of the run (C45_intermediate_partial). The returned W_sol is the world simulated last, not the best: C45_returned_false. Fitness is assumed to depend on the genome only."
  },
  {
   "property": "C46",
   "status": "proved",
   "theorems": [
    "UX.C46_init",
    "UX.C46_step",
    "UX.C46_monotone",
    "UX.C46_best",
    "UX.C46_value",
    "UX.C46_domains",
    "UX.C46_run",
    "UX.C46_repair_random",
    "UX.C46_repair_greedy",
    "UX.C46_destroy_random",
    "UX.C46_destroy_segment",
    "UX.C46_weights",
    "UX.C46_solver",
    "UX.C46_start_false",
    "UX.C46_objective_false",
    "UX.C46_shortest_false",
    "UX.C46_last_route",
    "UX.C46_never_raises",
    "UX.C46_pools_false",
    "UX.C46_objective"
   ],
   "note": "For all objectives (also ones that vary between evaluations), both senses, all destroy and repair operators. Domain claim needs a start vector in the domains, which SolverDSO_ALNS does not ensure (C46_start_false); its objective has the wrong sign for unfinished trips (C46_objective_false) and the start route is the last instead of the shortest (C46_shortest_false, C46_last_route). The run never raises if domains are not empty and the pools of the destroy operators have members (C46_never_raises); an empty pool raises (C46_pools_false)."
  },
  {
   "property": "C47",
   "status": "proved",
   "theorems": [
    "UX.C47_horizon",
    "UX.C47_steps",
    "UX.C47_given"
   ],
   "note": "exact arithmetic"
  },
  {
   "property": "C48",
   "status": "partial",
   "theorems": [
    "UX.C48_nearest_partial",
    "UX.C48_nearest_rounded",
    "UX.C48_area",
    "UX.C48_nearest_false"
   ],
   "note": "Area query proved. The nearest-node query is minimal whenever it answers; it gives None if every node is 100 km away or more, so the property is false there (C48_nearest_false)."
  },
  {
   "property": "C49",
   "status": "proved",
   "theorems": [
    "UX.C49_rows",
    "UX.C49_row",
    "UX.C49_read",
    "UX.C49_added_late_false"
   ],
   "note": "Rows, times and read-back for vehicles present before the first step (read-back in exact arithmetic). C49_added_late_false shows the restriction is needed."
  },
  {
   "property": "C50",
   "status": "proved",
   "theorems": [
    "UX.C50_schedule",
    "UX.C50_arrives"
   ],
   "note": "For a vehicle that has a link for itself (only link out of its origin, nobody else starts there, no link enters it) in any network of single trips with other traffic elsewhere; exact arithmetic, positive length and speed, enough entry capacity for one platoon. C50_arrives adds that the run exists in valid scenarios."
  },
  {
   "property": "C51",
   "status": "proved",
   "theorems": [
    "UX.C51_history",
    "UX.C51_nodes",
    "UX.C51_areas"
   ],
   "note": "For calls that succeed; exact arithmetic. If the only allowed destination is drawn as origin Python raises ValueError."
  },
  {
   "property": "C52",
   "status": "proved",
   "theorems": [
    "UX.C52_nodes",
    "UX.C52_areas",
    "UX.C52_total",
    "UX.C52_exact_false"
   ],
   "note": "Exact arithmetic. Shares below one platoon vanish (C52_exact_false), as the code's own warning says; pairs with equal origin and destination get their share too."
  },
  {
   "property": "C53",
   "status": "proved",
   "theorems": [
    "UX.C53_count",
    "UX.C53_entry",
    "UX.C53_free_flow"
   ],
   "note": "exact arithmetic; C53_free_flow also assumes free-flow speeds never changed and a positive time step"
  },
  {
   "property": "C54",
   "status": "proved",
   "theorems": [
    "UX.C54_actual",
    "UX.C54_nonneg"
   ],
   "note": "exact arithmetic, time step not 0; for every sequence of API calls after finalization"
  },
  {
   "property": "C55",
   "status": "proved",
   "theorems": [
    "UX.C55_trajectories",
    "UX.C55_good",
    "UX.C55_covers",
    "UX.C55_self_loop_false"
   ],
   "note": "The last stay of a vehicle that was never logged on another link afterwards is only shown to be a good trajectory, not to cover the link. C55_self_loop_false shows why self-loops are excluded."
  },
  {
   "property": "C56",
   "status": "proved",
   "theorems": [
    "UX.C56_cells",
    "UX.C56_bounds",
    "UX.C56_total"
   ],
   "note": "Cell sizes are arbitrary positive parameters. The time interval of a segment is that of its beginning, as in the code."
  },
  {
   "property": "C57",
   "status": "proved",
   "theorems": [
    "UX.C57_rows",
    "UX.C57_average",
    "UX.C57_free_flow"
   ],
   "note": "Means are exact. A length of zero is taken to raise ZeroDivisionError."
  },
  {
   "property": "C58",
   "status": "partial",
   "theorems": [
    "UX.C58_steps_partial",
    "UX.C58_false"
   ],
   "note": "False of the code: the mean runs over time steps, each showing the last vehicle's time (C58_steps_partial, C58_false)."
  },
  {
   "property": "C59",
   "status": "proved",
   "theorems": [
    "UX.C59_rows",
    "UX.C59_unfinished"
   ],
   "note": "Travel times are those of C53 and C54. C59_unfinished: IndexError before the end."
  },
  {
   "property": "C60",
   "status": "partial",
   "theorems": [
    "UX.C60_counts",
    "UX.C60_time_partial",
    "UX.C60_false"
   ],
   "note": "Counts hold (C60_counts). Times and speeds hold once nobody is in the area (C60_time_partial); otherwise they are wrong, even negative (C60_false). Logging every step; the table of vehicles is made for the first time."
  },
  {
   "property": "C61",
   "status": "proved",
   "theorems": [
    "UX.C61_rows",
    "UX.C61_times",
    "UX.C61_cached"
   ],
   "note": "Logging every step; vehicles created before the first step."
  },
  {
   "property": "C62",
   "status": "partial",
   "theorems": [
    "UX.C62_rows_partial",
    "UX.C62_speed",
    "UX.C62_false",
    "UX.C62_index_false"
   ],
   "note": "Logging every step, vehicles created before the first step. The state may lag by one step (C62_false). IndexError for vehicles without log rows (C62_index_false)."
  },
  {
   "property": "C63",
   "status": "partial",
   "theorems": [
    "UX.C63_ratios_partial",
    "UX.C63_detour_false",
    "UX.C63_rows_partial",
    "UX.C63_default_false"
   ],
   "note": "Group names must be given: the default raises AttributeError (C63_default_false). Ratios (C63_ratios_partial) for networks without parallel or closed links and vehicles with different origin and destination. Detour ratios can be below 1 (C63_detour_false)."
  },
  {
   "property": "C64",
   "status": "partial",
   "theorems": [
    "UX.C64_mfd",
    "UX.C64_exact_partial",
    "UX.C64_table_partial",
    "UX.C64_keys",
    "UX.C64_false"
   ],
   "note": "Flow exact and density exact up to time spent standing at a link end, if the cells divide the links (C64_exact_partial). False otherwise: time at the link end is lost and the table has one row per set of links instead of per interval (C64_false)."
  },
  {
   "property": "C65",
   "status": "partial",
   "theorems": [
    "UX.C65_stats",
    "UX.C65_basic",
    "UX.C65_times",
    "UX.C65_trips",
    "UX.C65_print",
    "UX.C65_false"
   ],
   "note": "Counts and differences hold in every reachable state; times are non-negative if taxis are assigned by the handlers of the package (C65_times). False otherwise: assign_taxi ignores the requested time, print_stats divides by zero without taxis (C65_false)."
  },
  {
   "property": "C66",
   "status": "partial",
   "theorems": [
    "UX.C66_trip",
    "UX.C66_least",
    "UX.C66_free_partial",
    "UX.C66_delay_partial",
    "UX.C66_nobody",
    "UX.C66_false"
   ],
   "note": "C66_trip: no finished vehicle was faster than its links allow. C66_least: reported times and distances are least over the links that count. C66_free_partial, C66_delay_partial: the full claim for networks without parallel links and with all links open. C66_false: with parallel links, or a link closed at the time of the analysis, delays are negative."
  },
  {
   "property": "C67",
   "status": "partial",
   "theorems": [
    "UX.C67_pairs",
    "UX.C67_free_columns",
    "UX.C67_areas",
    "UX.C67_bound_partial",
    "UX.C67_table",
    "UX.C67_names",
    "UX.C67_false"
   ],
   "note": "Counts, travel times and free-flow times hold for all runs (C67_pairs, C67_free_columns, C67_areas, C67_table, C67_names). Distances of vehicles whose pair of nodes has no finished trip count as 0 (C67_false; C67_areas states the value). The bound of C67_bound_partial needs a network without parallel or closed links."
  },
  {
   "property": "C68",
   "status": "partial",
   "theorems": [
    "UX.C68_recorded",
    "UX.C68_kept",
    "UX.C68_lookup_partial",
    "UX.C68_complete_partial",
    "UX.C68_step_false",
    "UX.C68_end_false",
    "UX.C68_time_false",
    "UX.C68_shortest_false"
   ],
   "note": "The record and its permanence hold for all runs (C68_recorded, C68_kept). Lookups are proved for exact arithmetic and update times of whole steps, runs of whole steps for completeness. Otherwise lookups can raise, the returned time is an interval number, and parallel links are averaged (the _false theorems)."
  },
  {
   "property": "C69",
   "status": "partial",
   "theorems": [
    "UX.C69_distances",
    "UX.C69_zero_false"
   ],
   "note": "Proved for positive link lengths, given a correct shortest-path routine. A link of length 0 is lost (C69_zero_false)."
  },
  {
   "property": "C70",
   "status": "partial",
   "theorems": [
    "UX.C70_routes_partial",
    "UX.C70_false"
   ],
   "note": "Proved for networks without parallel links, given a correct enumeration of simple paths (refPaths meets the assumption for every network). False with parallel links (C70_false)."
  },
  {
   "property": "C71",
   "status": "partial",
   "theorems": [
    "UX.C71_routes",
    "UX.C71_first_partial",
    "UX.C71_no_links_false",
    "UX.C71_parallel_false"
   ],
   "note": "Termination, keys and routes hold for every finalized world with a link and all random numbers, given correct shortest paths. The first route is fastest without parallel links; without links the call raises (C71_no_links_false), with parallel links the slower may be used (C71_parallel_false)."
  },
  {
   "property": "C72",
   "status": "partial",
   "theorems": [
    "UX.C72_value",
    "UX.C72_defined",
    "UX.C72_nonneg",
    "UX.C72_free",
    "UX.C72_route",
    "UX.C72_route_nonneg",
    "UX.C72_swallowed_false"
   ],
   "note": "Value and absence of swallowed exceptions in exact arithmetic if the queue and the exit lie within the simulated time; non-negativity and free flow with rounding; routes in exact arithmetic. Otherwise the answer is 0 (C72_swallowed_false)."
  },
  {
   "property": "C73",
   "status": "partial",
   "theorems": [
    "UX.C73_times",
    "UX.C73_costs_partial",
    "UX.C73_total_partial",
    "UX.C73_departure_false",
    "UX.C73_index_false",
    "UX.C73_step_false",
    "UX.C73_parallel_false"
   ],
   "note": "Exact arithmetic, no parallel links, given a correct single-source search (one exists: tsn_search). Entries are those of departure_time_in_second; for departures given in seconds this is not the departure time (C73_departure_false). Raises if TMAX is not a whole number of steps or the step is below 1 s (C73_index_false, C73_step_false); wrong with parallel links (C73_parallel_false)."
  },
  {
   "property": "C74",
   "status": "proved",
   "theorems": [
    "UX.C74_grid",
    "UX.C74_total",
    "UX.C74_ways",
    "UX.C74_ways_min",
    "UX.C74_distances",
    "UX.C74_twice_false"
   ],
   "note": "With rounding. Distances given a correct shortest-path routine as in C69. A second grid raises (C74_twice_false)."
  },
  {
   "property": "C75",
   "status": "partial",
   "theorems": [
    "UX.C75_step",
    "UX.C75_fixed",
    "UX.C75_demand",
    "UX.C75_seconds_false"
   ],
   "note": "Holds for departures given by time step and for demand; false for departures given in seconds (C75_seconds_false)."
  },
  {
   "property": "C76",
   "status": "proved",
   "theorems": [
    "UX.C76_lazy",
    "UX.C76_value",
    "UX.C76_read_idempotent"
   ],
   "note": "Any order of records and reads; the eager array is the specification (Spec/CppTimes)."
  },
  {
   "property": "C77",
   "status": "proved",
   "theorems": [
    "UX.C77_distance",
    "UX.C77_next",
    "UX.C77_terminates",
    "UX.C77_step",
    "UX.C77_follow"
   ],
   "note": "C77_distance, C77_next, C77_terminates hold for any rounding with FlOK; C77_step and C77_follow for exact arithmetic. Least cost is over walks whose cost is accumulated with the engine's rounding."
  },
  {
   "property": "C78",
   "status": "partial",
   "theorems": [
    "UX.C78_cost",
    "UX.C78_closed_false",
    "UX.C78_link",
    "UX.C78_instant"
   ],
   "note": "Mean: C78_cost; the price of one link: C78_link, C78_instant; exact arithmetic. The second half is false: a closed parallel link makes the entry infinite (C78_closed_false), as in the Python engine."
  },
  {
   "property": "C79",
   "status": "proved",
   "theorems": [
    "UX.C79_places",
    "UX.C79_queues",
    "UX.C79_chain",
    "UX.C79_network",
    "UX.C79_registries"
   ],
   "note": "Induction over every call of the bindings and every step of main_loop, including steps cut short by an exception. Parallel loops are any permutation of their iterations (each iteration atomic)."
  },
  {
   "property": "C80",
   "status": "proved",
   "theorems": [
    "UX.C80_order",
    "UX.C80_apart",
    "UX.C80_linkUpdate",
    "UX.C80_nodeStage",
    "UX.C80_followPass",
    "UX.C80_runPass",
    "UX.C80_waitPass"
   ],
   "note": "Footprint argument: every iteration of a parallel loop commutes with every other one. Each iteration is atomic in the model; C80_apart and the Confined theorems say that no iteration touches what another one writes. transfer is serial in the program."
  },
  {
   "property": "C81",
   "status": "proved",
   "theorems": [
    "UX.C81_chunk",
    "UX.C81_time",
    "UX.C81_notEarly",
    "UX.C81_departure"
   ],
   "note": "C81_departure in exact arithmetic; the other theorems for any monotone rounding."
  },
  {
   "property": "C82",
   "status": "proved",
   "theorems": [
    "UX.C82_balance",
    "UX.C82_curves",
    "UX.C82_frozen",
    "UX.C82_exception",
    "UX.C82_exception_false",
    "UX.C82_case"
   ],
   "note": "As stated: calls that did not throw and do not shorten the simulation below the current step (C82_balance, C82_curves, C82_frozen); the failed step itself (C82_exception). C82_exception_false shows that the claim does not extend to another call after a caught exception. ExactCounts: multiples of delta_n are not rounded."
  },
  {
   "property": "C83",
   "status": "proved",
   "theorems": [
    "UX.C83_progress",
    "UX.C83_final",
    "UX.C83_times",
    "UX.C83_destination",
    "UX.C83_trips",
    "UX.C83_trips_false",
    "UX.C83_case"
   ],
   "note": "C83_times needs a monotone rounding and 0 <= delta_t; C83_trips needs integers to be representable. C83_destination is stated for the parallel region of a time step, where ended_buf names the link. C83_trips_false: the printed number of completed trips counts aborted trips."
  },
  {
   "property": "C84",
   "status": "proved",
   "theorems": [
    "UX.C84_history",
    "UX.C84_curves",
    "UX.C84_case"
   ],
   "note": "Completed runs; vehicles that leave by ending a trip are part of the history. Curves for worlds whose earlier runs did not throw."
  },
  {
   "property": "C85",
   "status": "proved",
   "theorems": [
    "UX.C85_capacity",
    "UX.C85_counters",
    "UX.C85_fresh",
    "UX.C85_case"
   ],
   "note": "Exact arithmetic; token-bucket bound over every window of a completed run, from non-negative counters."
  },
  {
   "property": "C86",
   "status": "proved",
   "theorems": [
    "UX.C86_red",
    "UX.C86_order",
    "UX.C86_duration",
    "UX.C86_case"
   ],
   "note": "Red lights and cyclic order for every rounding; durations in exact arithmetic."
  },
  {
   "property": "C87",
   "status": "proved",
   "theorems": [
    "UX.C87_spacing",
    "UX.C87_storage",
    "UX.C87_run",
    "UX.C87_case",
    "UX.C87_jam_false"
   ],
   "note": "Calls that leave the jam spacing of occupied links alone; C87_jam_false shows why. Storage bound in exact arithmetic."
  },
  {
   "property": "C88",
   "status": "proved",
   "theorems": [
    "UX.C88_newell",
    "UX.C88_range",
    "UX.C88_case"
   ],
   "note": "Per completed time step; runs of many steps by C81. A vehicle whose leader leaves the link in the step may follow the leader's old position or drive freely, depending on the order of the updates."
  },
  {
   "property": "C89",
   "status": "proved",
   "theorems": [
    "UX.C89_eager",
    "UX.C89_life",
    "UX.C89_links",
    "UX.C89_missing",
    "UX.C89_case"
   ],
   "note": "Logging on, calls that did not throw, monotone rounding, 0 <= delta_t. The ghost field eager of the model records time step and state of every entry; C89_eager says that the reconstruction agrees with it."
  },
  {
   "property": "C90",
   "status": "proved",
   "theorems": [
    "UX.C90_journey",
    "UX.C90_last",
    "UX.C90_distance",
    "UX.C90_case",
    "UX.C90_false"
   ],
   "note": "Logging on, calls that did not throw, exact arithmetic, 0 < delta_t; C90_distance also needs a network without links from a node to itself. C90_false: distance_traveled of a completed trip is not the length of its links (450 m instead of 500 m in the example), since Node::transfer moves the vehicle on the new link without adding to distance_traveled."
  },
  {
   "property": "C91",
   "status": "proved",
   "theorems": [
    "UX.C91_way",
    "UX.C91_times",
    "UX.C91_entries",
    "UX.C91_dta",
    "UX.C91_false"
   ],
   "note": "Logging on, calls that did not throw, exact arithmetic, 0 < delta_t. C91_false: a vehicle that uses a link from a node to itself twice in a row has only one entry for it."
  },
  {
   "property": "C92",
   "status": "proved",
   "theorems": [
    "UX.C92_on",
    "UX.C92_log",
    "UX.C92_complete",
    "UX.C92_safe",
    "UX.C92_case",
    "UX.C92_false"
   ],
   "note": "C92_safe needs no assumption on rounding; C92_log and C92_complete assume exact arithmetic, logging and no links from a node to itself. C92_false refutes the stronger claim for routes enforced during the trip."
  },
  {
   "property": "C93",
   "status": "proved",
   "theorems": [
    "UX.C93_time",
    "UX.C93_route",
    "UX.C93_due",
    "UX.C93_own",
    "UX.C93_agree",
    "UX.C93_free",
    "UX.C93_experienced",
    "UX.C93_mine",
    "UX.C93_case",
    "UX.C93_mine_case",
    "UX.C93_mine_false",
    "UX.C93_agree_false"
   ],
   "note": "Exact arithmetic. Vehicles entering in the same time step share a travel time (C93_mine_false), and the two costs of the route driven differ with toll series (C93_agree_false); the statement says so."
  },
  {
   "property": "C94",
   "status": "proved",
   "theorems": [
    "UX.C94_record",
    "UX.C94_value",
    "UX.C94_free",
    "UX.C94_late",
    "UX.C94_dso",
    "UX.C94_route",
    "UX.C94_nonneg",
    "UX.C94_vehicles",
    "UX.C94_case",
    "UX.C94_behind_false"
   ],
   "note": "Exact arithmetic. The caveat in the statement is C94_behind_false. Hypothesis on the travel times a link was created with: not negative (they are len/vmax by C93_free)."
  },
  {
   "property": "C95",
   "status": "proved",
   "theorems": [
    "UX.C95_arrives",
    "UX.C95_fixed",
    "UX.C95_due",
    "UX.C95_dso",
    "UX.C95_dso_moves",
    "UX.C95_draws",
    "UX.C95_candidates",
    "UX.C95_equilibrium_due",
    "UX.C95_equilibrium_dso",
    "UX.C95_limit",
    "UX.C95_next_due",
    "UX.C95_next_dso",
    "UX.C95_case",
    "UX.C95_moves_false",
    "UX.C95_nolog_false"
   ],
   "note": "Exact arithmetic. The caveats in the statement are C95_moves_false and C95_nolog_false. Which vehicles may change is any stream of draws or any shuffle."
  },
  {
   "property": "C96",
   "status": "proved",
   "theorems": [
    "UX.C96_due",
    "UX.C96_dso",
    "UX.C96_again",
    "UX.C96_zero",
    "UX.C96_case",
    "UX.C96_sets_false",
    "UX.C96_twice_false"
   ],
   "note": "Exact arithmetic. The worlds of the days, the route sets and the average travel time are inputs; printing and tables are not modelled. The caveats in the statement are C96_again, C96_twice_false and C96_sets_false."
  },
  {
   "property": "C97",
   "status": "proved",
   "theorems": [
    "UX.C97_turns",
    "UX.C97_leader",
    "UX.C97_balance",
    "UX.C97_keep",
    "UX.C97_log",
    "UX.C97_case"
   ],
   "note": "For all worlds reachable by the bindings (CReach), no assumption on arithmetic."
  },
  {
   "property": "C98",
   "status": "proved",
   "theorems": [
    "UX.C98_arrived",
    "UX.C98_running",
    "UX.C98_case"
   ],
   "note": "Exact arithmetic. freeTime subtracts the engine's tolerance of 1e-9 m per link. Runs that threw and edits of links between the runs are not covered. C98_case: a vehicle for which both bounds are tight up to the tolerance."
  },
  {
   "property": "C99",
   "status": "proved",
   "theorems": [
    "UX.C99_log",
    "UX.C99_slow",
    "UX.C99_case",
    "UX.C99_own_limit_false"
   ],
   "note": "C99_log (per vehicle), C99_slow (all vehicles and recorded travel times); C99_own_limit_false: a logged speed can exceed the limit of its own link just after a transfer, as the statement says. C99_case is a concrete case."
  },
  {
   "property": "C100",
   "status": "proved",
   "theorems": [
    "UX.C100_link",
    "UX.C100_node",
    "UX.C100_ratio",
    "UX.C100_mean",
    "UX.C100_progress",
    "UX.C100_case",
    "UX.C100_ratio_one_false"
   ],
   "note": "Exact arithmetic. The speed ratio sum is given per run of main_loop, because a later change of the free-flow speed changes the divisor. C100_ratio_one_false: the printed ratio can be above 1."
  },
  {
   "property": "C101",
   "status": "proved",
   "theorems": [
    "UX.C101_walk",
    "UX.C101_avoid",
    "UX.C101_choice",
    "UX.C101_total",
    "UX.C101_safe",
    "UX.C101_case",
    "UX.C101_zero_false",
    "UX.C101_clash_false"
   ],
   "note": "Enter logs, positive preferences: exact arithmetic. C101_zero_false and C101_clash_false: the two exceptions in the statement."
  },
  {
   "property": "C102",
   "status": "proved",
   "theorems": [
    "UX.C102_range",
    "UX.C102_sum",
    "UX.C102_weight",
    "UX.C102_update",
    "UX.C102_tables",
    "UX.C102_path",
    "UX.C102_case",
    "UX.C102_gradual_false"
   ],
   "note": "Exact arithmetic, weight in [0,1]. C102_gradual_false: without the condition on the weight."
  },
  {
   "property": "C103",
   "status": "proved",
   "theorems": [
    "UX.C103_same",
    "UX.C103_run",
    "UX.C103_unused",
    "UX.C103_case",
    "UX.C103_mode_false"
   ],
   "note": "All runs and edits, any rounding. The streams are arbitrary sequences; how they are seeded is not modelled."
  },
  {
   "property": "C104",
   "status": "proved",
   "theorems": [
    "UX.C104_turns",
    "UX.C104_moves",
    "UX.C104_departs",
    "UX.C104_case",
    "UX.C104_second_false"
   ],
   "note": "The first vehicle on its link moves unless the slots of the next link are used up, it has no room, or the node capacity is exhausted; departures likewise. The second vehicle in several lanes may be held up: `C104_second_false`."
  },
  {
   "property": "C105",
   "status": "proved",
   "theorems": [
    "UX.C105_rest",
    "UX.C105_kept",
    "UX.C105_entry",
    "UX.C105_time",
    "UX.C105_case",
    "UX.C105_short_false"
   ],
   "note": "C105_rest gives position and remainder after every completed time step, C105_kept says that they last until the turn of the node, C105_entry gives the position on the next link, C105_time that no time is lost; C105_short_false shows the exception."
  },
  {
   "property": "C106",
   "status": "proved",
   "theorems": [
    "UX.C106_turns",
    "UX.C106_rest",
    "UX.C106_kept",
    "UX.C106_entry",
    "UX.C106_left",
    "UX.C106_time",
    "UX.C106_case",
    "UX.C106_short_false",
    "UX.C106_twice_false"
   ],
   "note": "All parts proved for every rounding; the caveats in the statement are shown by C106_short_false and C106_twice_false."
  },
  {
   "property": "C107",
   "status": "proved",
   "theorems": [
    "UX.C107_turns",
    "UX.C107_moves",
    "UX.C107_departs",
    "UX.C107_case",
    "UX.C107_departs_case",
    "UX.C107_second_false"
   ],
   "note": "Turn by turn (departTurn, turn of Spec/Carry.lean). C107_second_false shows that being first on the link is needed."
  },
  {
   "property": "C108",
   "status": "proved",
   "theorems": [
    "UX.C108_vehicles",
    "UX.C108_living",
    "UX.C108_running",
    "UX.C108_one",
    "UX.C108_used",
    "UX.C108_case",
    "UX.C108_names_false",
    "UX.C108_two_false",
    "UX.C108_none_false"
   ],
   "note": "The caveats in the statement are shown by C108_names_false, C108_two_false and C108_none_false."
  },
  {
   "property": "C109",
   "status": "proved",
   "theorems": [
    "UX.C109_clock",
    "UX.C109_return",
    "UX.C109_done",
    "UX.C109_steps",
    "UX.C109_python",
    "UX.C109_pieces",
    "UX.C109_auto",
    "UX.C109_auto_case",
    "UX.C109_case",
    "UX.C109_stuck_false"
   ],
   "note": "C109_clock, C109_return and C109_done hold for every rounding, C109_steps, C109_pieces and C109_python in exact arithmetic; C109_stuck_false shows the endless loop."
  },
  {
   "property": "C110",
   "status": "proved",
   "theorems": [
    "UX.C110_life",
    "UX.C110_rows",
    "UX.C110_motion",
    "UX.C110_places",
    "UX.C110_final",
    "UX.C110_frozen",
    "UX.C110_case",
    "UX.C110_stale_false"
   ],
   "note": "C110_frozen holds for all calls; C110_stale_false shows a log that stays incomplete."
  },
  {
   "property": "C111",
   "status": "proved",
   "theorems": [
    "UX.C111_shown",
    "UX.C111_larger",
    "UX.C111_smaller",
    "UX.C111_case",
    "UX.C111_distance_false"
   ],
   "note": "The part on the distance at the logged time is refuted by a witness, as the statement says."
  },
  {
   "property": "C112",
   "status": "proved",
   "theorems": [
    "UX.C112_routes",
    "UX.C112_ends",
    "UX.C112_first",
    "UX.C112_case",
    "UX.C112_parallel_false",
    "UX.C112_zero_length_false",
    "UX.C112_zero_draw_false"
   ],
   "note": "C112_routes holds with any rounding and any draws. C112_ends and C112_first are for exact arithmetic, positive lengths, speeds and draws; the _false theorems show what fails otherwise. That following the next hops ends with rounding is not proved."
  },
  {
   "property": "C113",
   "status": "proved",
   "theorems": [
    "UX.C113_past",
    "UX.C113_now",
    "UX.C113_done",
    "UX.C113_future",
    "UX.C113_state",
    "UX.C113_queue",
    "UX.C113_count",
    "UX.C113_average",
    "UX.C113_case",
    "UX.C113_state_case",
    "UX.C113_inflow_false",
    "UX.C113_speed_false"
   ],
   "note": "C113_inflow_false and C113_speed_false show the differences from the Python engine."
  },
  {
   "property": "C114",
   "status": "proved",
   "theorems": [
    "UX.C114_state",
    "UX.C114_aborted",
    "UX.C114_times",
    "UX.C114_departure",
    "UX.C114_link",
    "UX.C114_route",
    "UX.C114_case",
    "UX.C114_stale_false"
   ],
   "note": "C114_stale_false is the case of a log read before the end."
  },
  {
   "property": "C115",
   "status": "proved",
   "theorems": [
    "UX.Osm.C115_network",
    "UX.Osm.C115_connected",
    "UX.Osm.C115_two_way",
    "UX.Osm.C115_long",
    "UX.Osm.C115_case",
    "UX.Osm.C115_loop_false",
    "UX.Osm.C115_short_false"
   ],
   "note": "The two caveats of the statement are the theorems ending in _false."
  },
  {
   "property": "C116",
   "status": "proved",
   "theorems": [
    "UX.Osm.C116_nodes",
    "UX.Osm.C116_links",
    "UX.Osm.C116_sound",
    "UX.Osm.C116_default",
    "UX.Osm.C116_motorway_false",
    "UX.Osm.C116_case"
   ],
   "note": "The caveat on motorways is C116_motorway_false."
  },
  {
   "property": "C117",
   "status": "proved",
   "theorems": [
    "UX.Cpp.Names.C117_agree",
    "UX.Cpp.Names.C117_node",
    "UX.Cpp.Names.C117_link",
    "UX.Cpp.Names.C117_used",
    "UX.Cpp.Names.C117_used_link",
    "UX.Cpp.Names.C117_rename_false",
    "UX.Cpp.Names.C117_case",
    "UX.Cpp.Names.C117_unknown_false"
   ],
   "note": "The last sentence of the statement is C117_rename_false and C117_unknown_false."
  },
  {
   "property": "C118",
   "status": "proved",
   "theorems": [
    "UX.Osm2.C118_nodes",
    "UX.Osm2.C118_types",
    "UX.Osm2.C118_value",
    "UX.Osm2.C118_links",
    "UX.Osm2.C118_capacity",
    "UX.Osm2.C118_key_false",
    "UX.Osm2.C118_case",
    "UX.Osm2.C118_others_false",
    "UX.Osm2.C118_type_false"
   ],
   "note": "The statement contains the three things that do not hold (C118_key_false, C118_others_false, C118_type_false)."
  },
  {
   "property": "C119",
   "status": "proved",
   "theorems": [
    "UX.Cpp.C119_flat",
    "UX.Cpp.C119_names",
    "UX.Cpp.C119_case",
    "UX.Cpp.C119_ids",
    "UX.Cpp.C119_unknown",
    "UX.Cpp.C119_order",
    "UX.Cpp.C119_case_order",
    "UX.Cpp.C119_one",
    "UX.Cpp.C119_log",
    "UX.Cpp.C119_log_false"
   ],
   "note": "the last sentence of the statement is C119_log_false"
  },
  {
   "property": "C120",
   "status": "proved",
   "theorems": [
    "UX.Cpp.C120_demand",
    "UX.Cpp.C120_total",
    "UX.Cpp.C120_same",
    "UX.Cpp.C120_nodes",
    "UX.Cpp.C120_nearest",
    "UX.Cpp.C120_point",
    "UX.Cpp.C120_areas",
    "UX.Cpp.C120_nodes2",
    "UX.Cpp.C120_areas2",
    "UX.Cpp.C120_self_false",
    "UX.Cpp.C120_attr_false"
   ],
   "note": "Departures by the floor law and equal to those of the Python mode, attributes on exactly the new vehicles, equal shares, nearest nodes, evenly spaced platoons. The two differences from the Python mode that the statement names are C120_attr_false and C120_self_false."
  },
  {
   "property": "C121",
   "status": "proved",
   "theorems": [
    "UX.Cpp.C121_route",
    "UX.Cpp.C121_prefer",
    "UX.Cpp.C121_avoid",
    "UX.Cpp.C121_unknown_false",
    "UX.Cpp.C121_dest",
    "UX.Cpp.C121_insert",
    "UX.Cpp.C121_signal",
    "UX.Cpp.C121_phase",
    "UX.Cpp.C121_groups",
    "UX.Cpp.C121_raise",
    "UX.Cpp.C121_add",
    "UX.Cpp.C121_case",
    "UX.Cpp.C121_case_signal",
    "UX.Cpp.C121_dest_false",
    "UX.Cpp.C121_unlisted_false",
    "UX.Cpp.C121_shown_false"
   ],
   "note": "The statement contains its exceptions: C121_unknown_false, C121_dest_false, C121_raise, C121_unlisted_false and C121_shown_false are the findings."
  },
  {
   "property": "C122",
   "status": "proved",
   "theorems": [
    "UX.Cpp.C122_log",
    "UX.Cpp.C122_average",
    "UX.Cpp.C122_before",
    "UX.Cpp.C122_route",
    "UX.Cpp.C122_unknown",
    "UX.Cpp.C122_time",
    "UX.Cpp.C122_case",
    "UX.Cpp.C122_vehicles_false",
    "UX.Cpp.C122_running_false",
    "UX.Cpp.C122_route_case"
   ],
   "note": "C122_log, C122_average, C122_before, C122_route, C122_unknown, C122_time; the mean is not one over vehicles (C122_vehicles_false) and ignores the past during the simulation (C122_running_false)."
  },
  {
   "property": "C123",
   "status": "proved",
   "theorems": [
    "UX.Cpp.C123_shown",
    "UX.Cpp.C123_triangle",
    "UX.Cpp.C123_speed",
    "UX.Cpp.C123_jam",
    "UX.Cpp.C123_other",
    "UX.Cpp.C123_case",
    "UX.Cpp.C123_per_lane_false",
    "UX.Cpp.C123_zero_false",
    "UX.Cpp.C123_assign_false"
   ],
   "note": "The statement names the three findings, each with a witness theorem."
  },
  {
   "property": "C124",
   "status": "proved",
   "theorems": [
    "UX.Csv.C124_nodes",
    "UX.Csv.C124_links",
    "UX.Csv.C124_demand",
    "UX.Csv.C124_flow",
    "UX.Csv.C124_load",
    "UX.Csv.C124_written",
    "UX.Csv.C124_bad",
    "UX.Csv.C124_python_nodes",
    "UX.Csv.C124_python_links",
    "UX.Csv.C124_typo_false",
    "UX.Csv.C124_retry_false",
    "UX.Csv.C124_moment_false",
    "UX.Csv.C124_case",
    "UX.Csv.C124_blank_false"
   ],
   "note": "The statement names the findings, each with a theorem. The calls of both modes are parameters; what the Python calls do to the world is proved for nodes and links."
  },
  {
   "property": "C125",
   "status": "proved",
   "theorems": [
    "UX.C125_living",
    "UX.C125_done",
    "UX.C125_table",
    "UX.C125_late_false",
    "UX.C125_extra_false",
    "UX.C125_late_case",
    "UX.Cpp.C125_cpp_still",
    "UX.Cpp.C125_cpp_place",
    "UX.Cpp.C125_cpp_false"
   ],
   "note": "Exact arithmetic, logging interval 1; the surplus row, late vehicles and the C++ mode are stated as findings with witnesses."
  },
  {
   "property": "C126",
   "status": "proved",
   "theorems": [
    "UX.C126_enter",
    "UX.C126_drive",
    "UX.C126_follow",
    "UX.C126_depart",
    "UX.C126_end",
    "UX.C126_eligible",
    "UX.C126_merge",
    "UX.C126_slot",
    "UX.C126_transfer",
    "UX.C126_link",
    "UX.C126_signal",
    "UX.C126_nodecap",
    "UX.C126_choice",
    "UX.C126_generate",
    "UX.C126_exists",
    "UX.C126_case"
   ],
   "note": "Rule by rule, choices in the deterministic mode. Not part of the claim: the random choices (the engines draw different numbers), the order in which vehicles are updated at the end of a time step, and the route search."
  },
  {
   "property": "C127",
   "status": "proved",
   "theorems": [
    "UX.C127_transfers",
    "UX.C127_follows",
    "UX.C127_nodes",
    "UX.C127_links",
    "UX.C127_shape",
    "UX.C127_step",
    "UX.C127_case"
   ],
   "note": "Four of the stages of a step, in the deterministic mode with exact arithmetic; the update of vehicles and route choice are outside the statement, as it says."
  },
  {
   "property": "C128",
   "status": "proved",
   "theorems": [
    "UX.C128_end",
    "UX.C128_update",
    "UX.C128_rest",
    "UX.C128_case",
    "UX.C128_rest_case",
    "UX.C128_departure_false",
    "UX.C128_order_false"
   ],
   "note": "One vehicle (C128_update for running vehicles, C128_rest for all others). The stage as a whole differs: C128_order_false; departure times off the grid differ: C128_departure_false."
  },
  {
   "property": "C129",
   "status": "proved",
   "theorems": [
    "UX.C129_start",
    "UX.C129_signal",
    "UX.C129_node",
    "UX.C129_link",
    "UX.C129_vehicle",
    "UX.C129_demand",
    "UX.C129_scenario",
    "UX.C129_alike",
    "UX.C129_case",
    "UX.C129_link_false"
   ],
   "note": "C129_scenario: worlds built by the same calls hold the same objects with the same views; one theorem per call; C129_alike connects them with C126 to C128; C129_link_false shows two arguments for which the engines differ. Vehicles are made by the constructor of the C++ engine; that the wrapper makes exactly one is another property."
  },
  {
   "property": "C130",
   "status": "proved",
   "theorems": [
    "UX.C130_adjust",
    "UX.C130_finalize",
    "UX.C130_auto",
    "UX.C130_modes",
    "UX.C130_ready",
    "UX.C130_first",
    "UX.C130_case",
    "UX.C130_lanes_false",
    "UX.C130_first_case"
   ],
   "note": "C130_modes is the statement for finalize_scenario of both modes; C130_finalize the one for the engines. C130_ready and C130_first connect the preparation with the agreement of the time step (C127); they are about the worlds with placeholders for objects that do not exist (padded, filled)."
  }
 ]
}
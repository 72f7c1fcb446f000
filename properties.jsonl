{"id": "C01", "title": "Vehicles are never lost, duplicated or in two places", "statement": "After any sequence of API calls and simulation steps, every vehicle ever added is in exactly one of the states home, wait, run, end, abort; a waiting vehicle stands exactly once in the generation queue of its own origin and nowhere else, a running vehicle is exactly once on exactly one link (the one its `link` attribute names), all others are on no link and in no queue; VEHICLES_LIVING holds exactly the home/wait/run vehicles and VEHICLES_RUNNING exactly the running ones.", "quantifier": "all networks, demands, random outcomes, float roundings and histories of API calls", "why_tests_cant": "Tests only inspect final totals of a few scenarios; a vehicle lost or doubled under a particular interleaving of departures, transfers and trip ends would not be seen.", "anchors": ["uxsim/uxsim.py:Node.generate", "uxsim/uxsim.py:Node.transfer", "uxsim/uxsim.py:Vehicle.update", "uxsim/uxsim.py:Vehicle.end_trip", "uxsim/uxsim.py:World.addVehicle"]}
{"id": "C02", "title": "Cumulative counts account for every vehicle on a link", "statement": "At every instant between steps, cumulative arrivals minus cumulative departures of a link equals DELTAN times the number of vehicles on it, so num_vehicles_t at the current time equals num_vehicles.", "quantifier": "all links, all reachable worlds", "why_tests_cant": "The identity must survive every combination of generation, transfer (also self-loops) and trip end in one step.", "anchors": ["uxsim/uxsim.py:Link.update", "uxsim/uxsim.py:Link.num_vehicles_t", "uxsim/uxsim.py:Link.arrival_count", "uxsim/uxsim.py:Vehicle.end_trip"]}
{"id": "C03", "title": "Cumulative curves are monotone and never cross", "statement": "For every link the recorded arrival and departure curves are nondecreasing in time, the departure curve never exceeds the arrival curve at any recorded time, each executed step adds exactly one point to both, and points of earlier steps are never altered later.", "quantifier": "all links, all recorded times, all histories", "why_tests_cant": "A violation can appear only at one time step of one link in a long run.", "anchors": ["uxsim/uxsim.py:Link.update", "uxsim/uxsim.py:Link.departure_count", "uxsim/uxsim.py:Node.transfer"]}
{"id": "C04", "title": "Links are first-in first-out", "statement": "Vehicles leave every link in exactly the order in which they entered it, with any number of lanes: the sequence of vehicles that entered equals the sequence that left followed by the vehicles now on the link.", "quantifier": "all links, all histories", "why_tests_cant": "Order inversion needs specific multi-lane, merge and trip-end coincidences.", "anchors": ["uxsim/uxsim.py:Node.transfer", "uxsim/uxsim.py:Vehicle.end_trip", "uxsim/uxsim.py:Node.generate"]}
{"id": "C05", "title": "Vehicles stay on their link and never move backwards", "statement": "The position of a running vehicle always satisfies 0 <= x <= length of its link, and as long as it stays on a link its position never decreases from one step to the next - also under floating-point rounding.", "quantifier": "all running vehicles, all steps, every monotone rounding function", "why_tests_cant": "Exact-arithmetic examples cannot show that rounding never pushes a vehicle out of its link.", "anchors": ["uxsim/uxsim.py:Vehicle.carfollow", "uxsim/uxsim.py:Node.transfer", "uxsim/uxsim.py:Vehicle.update"]}
{"id": "C06", "title": "Vehicles in the same lane keep the jam spacing", "statement": "Between steps, any vehicle with a leader on the same link and lane is at least delta_per_lane*DELTAN metres behind it (up to float rounding of that difference), so vehicles never overlap or overtake within a lane.", "quantifier": "all vehicle pairs, all steps, all networks with positive jam spacing, every rounding", "why_tests_cant": "Depends on the stale previous position used when a vehicle enters a link; only an argument over all entry orders per step shows it is safe.", "anchors": ["uxsim/uxsim.py:Vehicle.carfollow", "uxsim/uxsim.py:Node.transfer", "uxsim/uxsim.py:Node.generate"]}
{"id": "C07", "title": "Lane bookkeeping never breaks", "statement": "The assertion that a new vehicle and its leader are in the same lane never fails; every running vehicle has a lane number below the number of lanes, and its leader is exactly the closest vehicle ahead in the same lane of the same link, or none.", "quantifier": "all networks, lane counts, histories", "why_tests_cant": "The assertion would fire only for some arrival/departure pattern.", "anchors": ["uxsim/uxsim.py:Node.generate", "uxsim/uxsim.py:Node.transfer"]}
{"id": "C08", "title": "Vehicle life cycle only moves forward", "statement": "A vehicle goes home -> wait -> run -> end or abort; it never goes back, never skips wait, and never changes again after end or abort.", "quantifier": "all vehicles, all pairs of consecutive states of a history", "why_tests_cant": "Requires looking at every transition of every vehicle.", "anchors": ["uxsim/uxsim.py:Vehicle.update", "uxsim/uxsim.py:Vehicle.end_trip", "uxsim/uxsim.py:Node.generate"]}
{"id": "C09", "title": "Trip records are consistent", "statement": "A vehicle has state end exactly if its arrival_time is not -1; then travel_time = (arrival_time - departure_time)*DELTAT and arrival_time > departure_time; vehicles not yet arrived or aborted report -1 for both.", "quantifier": "all vehicles in all reachable worlds", "why_tests_cant": "Finite runs do not cover aborted, waiting and same-step arrivals in combination.", "anchors": ["uxsim/uxsim.py:Vehicle.end_trip", "uxsim/uxsim.py:Vehicle.update"]}
{"id": "C10", "title": "Trips end only where they should", "statement": "A non-taxi vehicle finishes its trip only at the end of a link whose end node is its destination; it is aborted only at the end of a link into a node without outgoing links that is not its destination and only if trip_abort is set; taxis never end.", "quantifier": "all finishing events of all histories", "why_tests_cant": "Requires every path to end_trip, including those triggered by other vehicles.", "anchors": ["uxsim/uxsim.py:Vehicle.update", "uxsim/uxsim.py:Node.transfer", "uxsim/uxsim.py:Vehicle.end_trip"]}
{"id": "C11", "title": "Every travelled route is a connected path from the origin", "statement": "The links recorded in the route log of a vehicle form a connected path starting at its origin, so traveled_route never raises; if the trip has ended the path ends at the destination.", "quantifier": "all vehicles, all histories (taxis: no destination repeated twice in a row)", "why_tests_cant": "A teleport would occur only when a stale next-link choice is used.", "anchors": ["uxsim/uxsim.py:Vehicle.traveled_route", "uxsim/uxsim.py:Vehicle.record_log", "uxsim/uxsim.py:Vehicle.route_next_link_choice", "uxsim/uxsim.py:Route.__init__"]}
{"id": "C12", "title": "An enforced route is followed exactly", "statement": "After enforce_route is called before departure, the links travelled by the vehicle are always a prefix of the enforced route, whatever the traffic; otherwise the simulation raises.", "quantifier": "all routes, networks and traffic states", "why_tests_cant": "Must hold at every node for all congestion states.", "anchors": ["uxsim/uxsim.py:Vehicle.enforce_route", "uxsim/uxsim.py:Vehicle.route_next_link_choice", "uxsim/uxsim.py:Node.generate"]}
{"id": "C13", "title": "links_prefer and links_avoid are obeyed", "statement": "When a link is chosen for a vehicle without enforced route, it is an outgoing link of the node; if any outgoing link is preferred then a preferred one is taken; a link in links_avoid is never taken.", "quantifier": "all choices, random outcomes, preference vectors", "why_tests_cant": "Random choice: tests sample only a few outcomes.", "anchors": ["uxsim/uxsim.py:Node.generate", "uxsim/uxsim.py:Vehicle.route_next_link_choice"]}
{"id": "C14", "title": "no_cyclic_routing", "statement": "With no_cyclic_routing, a non-taxi vehicle is sent to an already visited node only if every candidate link leads to a visited node.", "quantifier": "all choices, all route logs", "why_tests_cant": "Needs all possible route histories.", "anchors": ["uxsim/uxsim.py:Vehicle.route_next_link_choice"]}
{"id": "C15", "title": "Inflow capacity of a link is respected over every time window", "statement": "The number of vehicles entering a link during any k consecutive steps never exceeds capacity_in*k*DELTAT plus a fixed burst of at most DELTAN*lanes + capacity_in*DELTAT (exact arithmetic).", "quantifier": "all links, all windows of any length, all histories", "why_tests_cant": "Window sums over unbounded time.", "anchors": ["uxsim/uxsim.py:Link.in_out_flow_constraint", "uxsim/uxsim.py:Node.transfer", "uxsim/uxsim.py:Node.generate"]}
{"id": "C16", "title": "Outflow capacity of a link is respected over every time window", "statement": "The number of vehicles transferred out of a link during any k consecutive steps never exceeds capacity_out*k*DELTAT plus a fixed burst (exact arithmetic).", "quantifier": "all links, all windows, all histories", "why_tests_cant": "Window sums over unbounded time.", "anchors": ["uxsim/uxsim.py:Link.in_out_flow_constraint", "uxsim/uxsim.py:Node.transfer"]}
{"id": "C17", "title": "Node flow capacity is respected over every time window", "statement": "The number of vehicles passing a node with flow_capacity during any k consecutive steps never exceeds flow_capacity*k*DELTAT plus a fixed burst (exact arithmetic).", "quantifier": "all nodes, all windows, all histories", "why_tests_cant": "Window sums over unbounded time.", "anchors": ["uxsim/uxsim.py:Node.flow_capacity_update", "uxsim/uxsim.py:Node.transfer"]}
{"id": "C18", "title": "No vehicle passes a red light", "statement": "Whenever a vehicle passes a signalised node (two or more phases) from a link, the node's current phase is one of the link's signal groups.", "quantifier": "all passing events of all histories", "why_tests_cant": "Needs every event, for every phase plan.", "anchors": ["uxsim/uxsim.py:Node.transfer", "uxsim/uxsim.py:Node.signal_control"]}
{"id": "C19", "title": "Signal phases cycle in order with a fixed duration", "statement": "For any plan with nonnegative green times the phase index is always valid and phases follow in cyclic order, each lasting exactly its green time.", "quantifier": "all phase plans, time step sizes, run lengths", "why_tests_cant": "Off-by-one of the switching rule shows only for particular ratios of green time and step size.", "anchors": ["uxsim/uxsim.py:Node.signal_control", "uxsim/uxsim.py:Node.override_signal"]}
{"id": "C20", "title": "Signal offset sets the initial phase", "statement": "For every plan of positive total length and every offset, node creation terminates, and the initial phase and elapsed time are those of a signal one of whose cycles begins `signal_offset` seconds after time zero, modulo the cycle (`signal_offset_old`: before time zero).", "quantifier": "all plans and offsets", "why_tests_cant": "A loop over an arbitrary plan: termination and correctness for all inputs.", "anchors": ["uxsim/uxsim.py:Node.__init__"]}
{"id": "C21", "title": "Splitting a simulation run does not change it", "statement": "Executing the simulation in any number of consecutive exec_simulation calls gives exactly the same state as executing it in one call: no step is skipped or repeated.", "quantifier": "all ways of splitting [0, TMAX] and all scenarios", "why_tests_cant": "Infinitely many splittings.", "anchors": ["uxsim/uxsim.py:World.exec_simulation"]}
{"id": "C22", "title": "exec_simulation stops at the right time", "statement": "exec_simulation returns 1 exactly when all TSIZE steps have been executed; afterwards further calls change nothing; a call with a positive duration never executes a step beyond TMAX, and check_simulation_ongoing is true exactly until then.", "quantifier": "all call arguments and scenarios", "why_tests_cant": "Boundary arithmetic over all durations.", "anchors": ["uxsim/uxsim.py:World.exec_simulation", "uxsim/uxsim.py:World.check_simulation_ongoing"]}
{"id": "C23", "title": "hard_deterministic_mode is independent of the random seed", "statement": "With hard_deterministic_mode, two worlds that differ only in their random generator remain equal in everything else after any number of steps.", "quantifier": "all scenarios, all pairs of seeds", "why_tests_cant": "Seeds cannot be enumerated.", "anchors": ["uxsim/uxsim.py:Node.generate", "uxsim/uxsim.py:Node.transfer", "uxsim/uxsim.py:Vehicle.route_next_link_choice", "uxsim/uxsim.py:RouteChoice.route_search_all"]}
{"id": "C24", "title": "adddemand generates the requested number of vehicles", "statement": "adddemand with a flow generates floor(flow*DELTAT*steps/DELTAN) vehicles, all departing within [t_start, t_end), spread so that after every step the generated number is the floor of the demand so far; with a volume and a window aligned to the time step the total is floor(volume/DELTAN) and never more than the volume.", "quantifier": "all flows, volumes, windows, step sizes (exact arithmetic)", "why_tests_cant": "All real parameters.", "anchors": ["uxsim/uxsim.py:World.adddemand"]}
{"id": "C25", "title": "Names identify objects", "statement": "In every world all node names, all link names and all vehicle names are distinct; get_node/get_link/VEHICLES by name return the object with that name; adding an object with a used name raises and changes nothing; ids are 0..n-1 in order of creation.", "quantifier": "all sequences of add calls", "why_tests_cant": "All call sequences and names.", "anchors": ["uxsim/uxsim.py:World.addNode", "uxsim/uxsim.py:World.addLink", "uxsim/uxsim.py:World.addVehicle", "uxsim/uxsim.py:World.get_node", "uxsim/uxsim.py:World.get_link"]}
{"id": "C26", "title": "Vehicles leave their origin in order and never early", "statement": "Vehicles leave a node's generation queue in the order in which they joined it; no vehicle enters the network before its departure time.", "quantifier": "all nodes, all histories", "why_tests_cant": "Order over unbounded histories.", "anchors": ["uxsim/uxsim.py:Node.generate", "uxsim/uxsim.py:Vehicle.update"]}
{"id": "C27", "title": "A link never stores more vehicles than fit", "statement": "The number of vehicles on a link never exceeds lanes*(length/(delta_per_lane*DELTAN)+1), i.e. jam density times length plus one platoon per lane.", "quantifier": "all links, all reachable worlds (exact arithmetic)", "why_tests_cant": "Needs the spacing invariant for all states.", "anchors": ["uxsim/uxsim.py:Node.generate", "uxsim/uxsim.py:Node.transfer", "uxsim/uxsim.py:Vehicle.carfollow"]}
{"id": "C28", "title": "Link travel times are not faster than free flow", "statement": "The time between entering and leaving a link is never smaller than length/free_flow_speed minus one time step.", "quantifier": "all vehicles, links, histories (exact arithmetic)", "why_tests_cant": "Carry-over movement at nodes could create faster-than-free-flow trips in some phase alignment.", "anchors": ["uxsim/uxsim.py:Node.transfer", "uxsim/uxsim.py:Vehicle.end_trip", "uxsim/uxsim.py:Link.actual_travel_time"]}
{"id": "C29", "title": "Speeds are bounded", "statement": "Right after every step each running vehicle has 0 <= v <= free flow speed of its link.", "quantifier": "all vehicles, all steps (exact arithmetic)", "why_tests_cant": "All traffic states.", "anchors": ["uxsim/uxsim.py:Vehicle.update", "uxsim/uxsim.py:Vehicle.carfollow"]}
{"id": "C30", "title": "Route preferences stay within [0,1]", "statement": "With DUO_UPDATE_WEIGHT in [0,1] every entry of the shared route preference is always in [0,1], and right after an update the link on the current shortest path has weight at least the update weight.", "quantifier": "all destinations, links, numbers of updates", "why_tests_cant": "Unbounded number of updates.", "anchors": ["uxsim/uxsim.py:RouteChoice.homogeneous_DUO_update"]}
{"id": "C31", "title": "Following the computed next node reaches the destination", "statement": "If the shortest-path routine meets its specification and link costs are positive, then following `next` from any node that can reach the destination visits nodes of strictly decreasing distance and reaches the destination within as many hops as there are nodes.", "quantifier": "all networks, costs and destinations", "why_tests_cant": "All graphs.", "anchors": ["uxsim/uxsim.py:RouteChoice.route_search_all"]}
{"id": "C32", "title": "Parallel links", "statement": "The cost between two nodes used for route search is the mean of the costs of all open parallel links between them; closing one of them (capacity_in=0) leaves the others usable.", "quantifier": "all multigraphs", "why_tests_cant": "All link orders and multiplicities.", "anchors": ["uxsim/uxsim.py:RouteChoice.route_search_all"]}
{"id": "C33", "title": "Link parameters describe one triangular fundamental diagram", "statement": "For every accepted link: w*tau*kappa = 1, capacity = u*k_star = w*(kappa-k_star), 0 < k_star < kappa, capacity < lanes/reaction_time; and this stays so after change_free_flow_speed / change_jam_density.", "quantifier": "all parameters (exact arithmetic)", "why_tests_cant": "All real parameters.", "anchors": ["uxsim/uxsim.py:Link.__init__", "uxsim/uxsim.py:Link.change_free_flow_speed", "uxsim/uxsim.py:Link.change_jam_density"]}
{"id": "C34", "title": "A valid scenario never crashes", "statement": "For scenarios with single-trip or taxi vehicles without enforced routes and avoid lists, with valid parameters, no simulation step raises any exception (KeyError, IndexError, AssertionError, ...).", "quantifier": "all networks, demands, seeds and numbers of steps", "why_tests_cant": "Absence of exceptions over all executions.", "anchors": ["uxsim/uxsim.py:World.exec_simulation"]}
{"id": "C35", "title": "Distance travelled", "statement": "distance_traveled of a vehicle equals the length of the links it has completely passed plus its position on the current link.", "quantifier": "all vehicles, all histories (exact arithmetic)", "why_tests_cant": "All traffic states.", "anchors": ["uxsim/uxsim.py:Vehicle.update", "uxsim/uxsim.py:Node.transfer"]}
{"id": "C36", "title": "Basic statistics add up", "statement": "trip_all equals DELTAN times the number of vehicles with a destination, trip_completed counts exactly the finished ones, total_travel_time is DELTAN times the sum of their travel times, and total_distance_traveled is the sum of the distances of all vehicles.", "quantifier": "all sets of vehicles", "why_tests_cant": "All OD structures.", "anchors": ["uxsim/analyzer.py:Analyzer.od_analysis", "uxsim/analyzer.py:Analyzer.basic_analysis"]}
{"id": "C37", "title": "Statistics reflect the state at the time of the call", "statement": "Statistics obtained after the end of the simulation do not depend on whether statistics were already requested earlier.", "quantifier": "all call histories", "why_tests_cant": "Depends on call order.", "anchors": ["uxsim/analyzer.py:Analyzer.od_analysis"]}
{"id": "C38", "title": "Reported average speed is the mean of the logged speeds", "statement": "The running average speed equals the arithmetic mean of all recorded speeds, waiting vehicles counting as zero.", "quantifier": "all logs", "why_tests_cant": "Unbounded running mean.", "anchors": ["uxsim/uxsim.py:Vehicle.record_log"]}
{"id": "C39", "title": "Taxi requests are served once", "statement": "Every trip request is pending or assigned to one taxi, never both; it is assigned at most once and only after its request time; a taxi with a passenger or on its way is never given another request by the provided handlers; pick-up precedes arrival.", "quantifier": "all request streams, handlers, random outcomes", "why_tests_cant": "All interleavings of requests and simulation steps.", "anchors": ["uxsim/TaxiHandler/TaxiHandler.py:TaxiHandler.assign_taxi", "uxsim/TaxiHandler/TaxiHandler.py:TaxiHandler_random.assign_trip_request_to_taxi", "uxsim/TaxiHandler/TaxiHandler.py:TripRequest.get_on_taxi"]}
{"id": "C40", "title": "Route objects", "statement": "A Route is created exactly if consecutive links are connected, and its actual_travel_time equals the sum of the link travel times, each evaluated at the time the previous link is left.", "quantifier": "all link sequences and times", "why_tests_cant": "All sequences.", "anchors": ["uxsim/uxsim.py:Route.__init__", "uxsim/uxsim.py:Route.actual_travel_time"]}
{"id": "C41", "title": "Saving and loading a scenario preserves it", "statement": "Loading a saved scenario into a fresh world gives the same nodes, links and demand, and simulating it gives the same result.", "quantifier": "all scenarios", "why_tests_cant": "All scenarios.", "anchors": ["uxsim/scenario_reader_writer.py:save_scenario", "uxsim/scenario_reader_writer.py:load_scenario"]}
{"id": "C42", "title": "Count queries are total and monotone in time", "statement": "arrival_count, departure_count and num_vehicles_t are defined for every real time once a step has run, nondecreasing in t (counts), and num_vehicles_t is nonnegative everywhere.", "quantifier": "all times including negative and beyond the horizon", "why_tests_cant": "All real arguments.", "anchors": ["uxsim/uxsim.py:Link.arrival_count", "uxsim/uxsim.py:Link.departure_count", "uxsim/uxsim.py:Link.num_vehicles_t"]}
{"id": "C43", "title": "SolverDSO_D2D returns its best iteration", "statement": "The solution kept by the DSO D2D solver has the smallest total travel time of all iterations that completed all trips.", "quantifier": "all sequences of simulation outcomes", "why_tests_cant": "All outcome sequences.", "anchors": ["uxsim/DTAsolvers/DTAsolvers.py:SolverDSO_D2D.solve"]}
{"id": "C44", "title": "Route swapping never picks a worse route", "statement": "In the DUE solver a vehicle is only ever moved to a route whose travel time is strictly smaller than the one of its current route, and to the best of the alternatives.", "quantifier": "all cost vectors and random outcomes", "why_tests_cant": "All cost vectors.", "anchors": ["uxsim/DTAsolvers/DTAsolvers.py:SolverDUE.solve"]}
{"id": "C45", "title": "Genetic operators keep solutions feasible and never lose the best", "statement": "Crossover and mutation keep every gene in its domain and the genome length; with elitism the best fitness never decreases over generations; the returned solution is the best one found.", "quantifier": "all populations, random outcomes, numbers of generations", "why_tests_cant": "Random search.", "anchors": ["uxsim/DTAsolvers/DTAsolvers.py:SolverDSO_GA.solve"]}
{"id": "C46", "title": "ALNS keeps the best accepted solution", "statement": "The best objective value never increases, belongs to the stored best solution, and is the minimum over all accepted solutions; candidate solutions stay in their domains.", "quantifier": "all objective functions, operators, random outcomes", "why_tests_cant": "Random search.", "anchors": ["uxsim/DTAsolvers/ALNS.py:auto_step", "uxsim/DTAsolvers/ALNS.py:_repair_random"]}
{"id": "C47", "title": "The default horizon covers all departures", "statement": "If no simulation time is given, TMAX is a multiple of 1800 s at least 1800 s after the last departure time.", "quantifier": "all demands", "why_tests_cant": "All departure times.", "anchors": ["uxsim/uxsim.py:World.finalize_scenario"]}
{"id": "C48", "title": "Nearest node and area queries", "statement": "get_nearest_node returns a node minimising the Euclidean distance; get_nodes_in_area returns exactly the nodes strictly within the radius, in order.", "quantifier": "all coordinates and networks", "why_tests_cant": "All coordinates.", "anchors": ["uxsim/uxsim.py:World.get_nearest_node", "uxsim/uxsim.py:World.get_nodes_in_area"]}
{"id": "C49", "title": "Vehicle logs are complete and time ordered", "statement": "With logging interval 1, a vehicle added before the start has exactly one log row per executed step while living, row i belonging to time i*DELTAT, so get_xy_coords(t) reads the position at time t.", "quantifier": "all vehicles, all times", "why_tests_cant": "All times.", "anchors": ["uxsim/uxsim.py:Vehicle.record_log", "uxsim/uxsim.py:Vehicle.get_xy_coords"]}
{"id": "C50", "title": "Unobstructed vehicles arrive on schedule", "statement": "A vehicle alone on a single link enters one step after its departure step and ends its trip after exactly ceil(length/(u*DELTAT)) movement steps.", "quantifier": "all lengths, speeds, step sizes, departure times (exact arithmetic)", "why_tests_cant": "All real parameters; liveness.", "anchors": ["uxsim/uxsim.py:World.exec_simulation", "uxsim/uxsim.py:Vehicle.carfollow"]}
{"id": "C51", "title": "Smooth area demand creates exactly the requested platoons", "statement": "adddemand_nodes2nodes2 and adddemand_area2area2 create exactly floor(volume/DELTAN) platoons with evenly spaced departure times from t_start to t_end, each from an allowed origin that has an outgoing link to an allowed destination that has an incoming link, never to its own origin; all demand functions act only through addVehicle.", "quantifier": "all networks, areas, volumes, windows and random outcomes (exact arithmetic)", "why_tests_cant": "Origins and destinations are random; tests see single draws.", "anchors": ["uxsim/uxsim.py:World.adddemand_nodes2nodes2", "uxsim/uxsim.py:World.adddemand_area2area2"]}
{"id": "C52", "title": "Older area demand gives every pair the same share", "statement": "adddemand_nodes2nodes and adddemand_area2area give every pair of a usable origin and a usable destination the same share of the demand, spread over the window like adddemand, and never generate more than asked for.", "quantifier": "all networks, node lists, areas, flows, volumes and windows (exact arithmetic)", "why_tests_cant": "All networks and demands.", "anchors": ["uxsim/uxsim.py:World.adddemand_nodes2nodes", "uxsim/uxsim.py:World.adddemand_area2area"]}
{"id": "C53", "title": "Instantaneous link travel times", "statement": "Every simulation step appends exactly one entry to traveltime_instant of every link. In steps that are multiples of the update interval the entry is the length divided by the mean speed of the vehicles on the link when the step begins (the free-flow speed if it is empty, one percent of it if all vehicles stand); in other steps the previous entry is repeated. Hence no entry is below the free-flow travel time.", "quantifier": "all networks, scenarios and steps (exact arithmetic; for the bound free-flow speeds never changed)", "why_tests_cant": "Depends on the traffic state in every step of every scenario; tests compare final travel times in a few networks.", "anchors": ["uxsim/uxsim.py:Link.set_traveltime_instant", "uxsim/uxsim.py:Link.update", "uxsim/uxsim.py:Link.speed"]}
{"id": "C54", "title": "Actual link travel times", "statement": "After finalization, entry i of traveltime_actual of a link is the time spent on the link by the vehicle that left it last among the vehicles that had entered it by step i, where a vehicle that passes on leaves at the beginning of the step and one that finishes its trip at its end; it is the free-flow travel time as long as there is no such vehicle.", "quantifier": "all networks, scenarios, links, entry steps and sequences of calls after finalization (exact arithmetic)", "why_tests_cant": "The array is overwritten at every departure; the claim is about all interleavings of vehicles.", "anchors": ["uxsim/uxsim.py:Vehicle.end_trip", "uxsim/uxsim.py:Node.transfer", "uxsim/uxsim.py:Link.init_after_tmax_fix"]}
{"id": "C55", "title": "Trajectories read from the logs", "statement": "compute_accurate_traj gives every link, vehicle by vehicle, exactly the maximal runs of consecutive log rows on that link, completed at both ends at free-flow speed when the missing part takes more than a hundredth of a step (and, at the end, at most a step). It never raises. With every step logged and no link from a node to itself, each trajectory stays inside the link, never goes backward, is never faster than the free-flow speed, and covers the link (up to a hundredth of a step's distance at each end) if the vehicle went on to another link.", "quantifier": "all networks, scenarios, vehicles, links and steps (exact arithmetic, free-flow speeds never changed, no taxis)", "why_tests_cant": "Combines the logs of all vehicles in all traffic states; tests look at a few aggregated plots.", "anchors": ["uxsim/analyzer.py:Analyzer.compute_accurate_traj", "uxsim/uxsim.py:Vehicle.record_log"]}
{"id": "C56", "title": "Edie's traffic states", "statement": "compute_edie_state never raises. For every space-time cell of a link the accumulated distance and time are DELTAN times the distances driven and times spent in the space cell by the trajectory segments beginning in the time interval, density and flow are these divided by the cell's area, flow = density * speed, 0 <= speed <= free-flow speed, empty cells have the free-flow speed, and the distances of all cells add up to DELTAN times the distances covered by the trajectories.", "quantifier": "all networks, scenarios, links, cell sizes and cells (exact arithmetic, every step logged, no self-loops, free-flow speeds never changed, no taxis; for the sum: cells dividing the link, no trajectory past the last interval)", "why_tests_cant": "The split of segments over cells depends on every position and cell size.", "anchors": ["uxsim/analyzer.py:Analyzer.compute_edie_state"]}
{"id": "C57", "title": "Link table", "statement": "After at least one step link_to_pandas gives one row per link, in order: its name, ends and length, a volume of DELTAN times the vehicles that have left it, remaining vehicles of DELTAN times those on it, both adding up to DELTAN times the vehicles that ever entered. The average travel time is -1 if nobody has left, else the mean of the positive recorded travel times, and is never below the free-flow time by more than a step.", "quantifier": "all networks, scenarios and steps (lengths and speeds not zero; last part in exact arithmetic with free-flow speeds never changed)", "why_tests_cant": "Tests compare totals of single scenarios with tolerances.", "anchors": ["uxsim/analyzer.py:Analyzer.link_analysis_coarse", "uxsim/analyzer.py:Analyzer.link_to_pandas"]}
{"id": "C58", "title": "Average travel time of a link", "statement": "The average travel time in link_to_pandas is the mean of the times the vehicles that have left the link spent on it.", "quantifier": "all networks, scenarios, links and steps", "why_tests_cant": "The two means agree in free flow and differ slightly otherwise.", "anchors": ["uxsim/analyzer.py:Analyzer.link_analysis_coarse"]}
{"id": "C59", "title": "Cumulative table", "statement": "At the end of a simulation link_cumulative_to_pandas gives for every link and every step the number of vehicles (times DELTAN) that have entered and left up to that step, and the travel times shown at that step. Before the end it raises IndexError.", "quantifier": "all networks, scenarios, links and steps (exact arithmetic)", "why_tests_cant": "A table over all links and steps.", "anchors": ["uxsim/analyzer.py:Analyzer.link_cumulative_to_pandas"]}
{"id": "C60", "title": "Area table", "statement": "area_to_pandas gives one row per area: the number of links of the area, the number of different vehicles (times DELTAN) that have entered one of them, the vehicles on them now, the vehicles per length, and a total travel time and an average speed that are not negative.", "quantifier": "all networks, scenarios, steps, lists of areas, with and without border links", "why_tests_cant": "The figures are wrong only while vehicles are inside the area.", "anchors": ["uxsim/analyzer.py:Analyzer.area_to_pandas"]}
{"id": "C61", "title": "Vehicle table", "statement": "On its first call vehicles_to_pandas gives for every vehicle one row per step since the step after its departure, with the name of its link or a label saying where it is otherwise, up to now or to the end of the trip. Later calls return the same table.", "quantifier": "all networks, scenarios, vehicles created before the first step, steps (logging every step)", "why_tests_cant": "All rows of all vehicles in all histories.", "anchors": ["uxsim/analyzer.py:Analyzer.vehicles_to_pandas", "uxsim/uxsim.py:Vehicle.record_log"]}
{"id": "C62", "title": "Trip table", "statement": "vehicle_trip_to_pandas gives one row per vehicle with its state, the travel time of a finished trip (-1 for others) and the mean of the speeds logged while driving.", "quantifier": "all networks, scenarios and steps", "why_tests_cant": "The state is wrong in one step of a trip only.", "anchors": ["uxsim/analyzer.py:Analyzer.vehicle_trip_to_pandas"]}
{"id": "C63", "title": "Vehicle groups", "statement": "vehicle_groups_to_pandas gives for every group the number of vehicles, how many have finished, and their mean travel time, distance and speed, and the means of the ratios to free-flow time and shortest distance, which are at least 1. Finished vehicles never cause a division by zero.", "quantifier": "all networks, scenarios, steps and groups (exact arithmetic)", "why_tests_cant": "All groups of vehicles; the default group names are never used in tests.", "anchors": ["uxsim/analyzer.py:Analyzer.vehicle_groups_to_pandas"]}
{"id": "C64", "title": "Network average flow and density", "statement": "compute_mfd gives for every set of links and every time interval the average density (vehicle time per length and time) and flow (distance per length and time) of the vehicles on these links. Both are non-negative and flow is at most density times the greatest free-flow speed. mfd_to_pandas lists all intervals.", "quantifier": "all networks, scenarios, steps, sets of links, cell sizes (exact arithmetic)", "why_tests_cant": "All trajectories, queues at link ends and repeated calls with different sets of links.", "anchors": ["uxsim/analyzer.py:Analyzer.compute_mfd", "uxsim/analyzer.py:Analyzer.mfd_to_pandas", "uxsim/analyzer.py:Analyzer.compute_edie_state"]}
{"id": "C65", "title": "Taxi trip statistics", "statement": "TaxiHandler.compute_stats and the tables made from it count completed and open requests exactly, and waiting and travel times are the differences of the recorded times. Waiting times and times in the taxi are non-negative. print_stats works for every run.", "quantifier": "all networks, fleets, requests, handlers and steps", "why_tests_cant": "All orders of requests, assignments and arrivals, and runs without requests or taxis.", "anchors": ["uxsim/TaxiHandler/TaxiHandler.py:TaxiHandler.compute_stats", "uxsim/TaxiHandler/TaxiHandler.py:TaxiHandler.basic_to_pandas", "uxsim/TaxiHandler/TaxiHandler.py:TaxiHandler.print_stats", "uxsim/TaxiHandler/TaxiHandler.py:TaxiHandler.trips_to_pandas"]}
{"id": "C66", "title": "Free-flow travel times and delays", "statement": "The free-flow travel time (shortest distance) reported for a pair of nodes is the least sum of free-flow times (lengths) over all connected sequences of links between them. No vehicle is faster than the free-flow time of its links. total_delay and average_delay are the sum and mean over the finished vehicles of travel time minus free-flow time, and are non-negative.", "quantifier": "all networks, scenarios, steps, random outcomes (exact arithmetic)", "why_tests_cant": "All networks and routes, parallel and closed links, and every sequence of congestion.", "anchors": ["uxsim/analyzer.py:Analyzer.od_analysis", "uxsim/analyzer.py:Analyzer.basic_analysis", "uxsim/analyzer.py:Analyzer.od_to_pandas"]}
{"id": "C67", "title": "Tables by origin and destination", "statement": "od_to_pandas has exactly one row per pair of nodes with trips and areas2areas_to_pandas one per pair of areas with trips. They count all and the finished vehicles of the pair. Travel times and free-flow times are means over the finished vehicles, distances are means over all vehicles. The mean free-flow time is at most the mean travel time.", "quantifier": "all networks, scenarios, steps, lists of areas (also overlapping ones)", "why_tests_cant": "All groupings of vehicles and all mixtures of finished and unfinished trips.", "anchors": ["uxsim/analyzer.py:Analyzer.od_to_pandas", "uxsim/analyzer.py:Analyzer.areas2areas_to_pandas", "uxsim/analyzer.py:Analyzer.od_analysis"]}
{"id": "C68", "title": "Recorded shortest travel times", "statement": "A table of shortest instantaneous travel times is recorded for exactly the simulated steps at which routes are searched, and nothing later changes it. get_shortest_path_instantaneous_travel_time_between_all_nodes_on_t returns the table of the last update at or before t (times from TMAX on count as TMAX-DELTAT) together with the time of that update, and raises for no t >= 0 after a complete run. The tables contain shortest travel times.", "quantifier": "all worlds, histories, steps, times t, update times", "why_tests_cant": "All combinations of update time, step length and query time.", "anchors": ["uxsim/Utilities/Utilities.py:get_shortest_path_instantaneous_travel_time_between_all_nodes_on_t", "uxsim/uxsim.py:RouteChoice.route_search_all"]}
{"id": "C69", "title": "Shortest distances between nodes", "statement": "get_shortest_path_distance_between_all_nodes gives for every pair of nodes the length of a shortest way along links (also with parallel links), and infinity iff there is none.", "quantifier": "all networks and pairs of nodes", "why_tests_cant": "All networks.", "anchors": ["uxsim/Utilities/Utilities.py:get_shortest_path_distance_between_all_nodes"]}
{"id": "C70", "title": "k shortest routes", "statement": "enumerate_k_shortest_routes and enumerate_k_shortest_routes_on_t return at most k different routes from source to target without repeated nodes, with their costs in increasing order; every other such route costs at least as much, and is left out only if k are returned.", "quantifier": "all networks, pairs of nodes, cost functions, k", "why_tests_cant": "All networks and cost functions.", "anchors": ["uxsim/Utilities/Utilities.py:enumerate_k_shortest_routes", "uxsim/Utilities/Utilities.py:enumerate_k_shortest_routes_on_t"]}
{"id": "C71", "title": "Random routes", "statement": "enumerate_k_random_routes ends without an exception for every sequence of random numbers. Its keys are the connected pairs of nodes. Every entry has at most k different routes, each leading along links from origin to destination, and the first is a fastest one in free flow.", "quantifier": "all networks, k, random numbers", "why_tests_cant": "Termination for all random numbers; all networks.", "anchors": ["uxsim/Utilities/Utilities.py:enumerate_k_random_routes"]}
{"id": "C72", "title": "Congestion externality", "statement": "estimate_congestion_externality_link never raises and never returns a negative value. On a link where a vehicle entering at t needs at most 1.01 times the free-flow time it returns 0. Otherwise it returns the time between the exit of the last vehicle before t and the exit of the hypothetical one, times the number of vehicles that enter from t until the queue is gone. estimate_congestion_externality_route adds this up over the links of the route, each at the time the vehicle enters it.", "quantifier": "all finished simulations, links, routes, times", "why_tests_cant": "All simulations and times; correctness of a loop that searches for the end of the queue.", "anchors": ["uxsim/Utilities/Utilities.py:estimate_congestion_externality_link", "uxsim/Utilities/Utilities.py:estimate_congestion_externality_route"]}
{"id": "C73", "title": "Time-space network", "statement": "construct_time_space_network does not raise after a simulation, and gives for the origin and departure time of every vehicle and every node the least travel time of all trips to that node whose link entries are rounded down to the grid, or no entry if there is no such trip.", "quantifier": "all finished simulations, grids, vehicles, nodes", "why_tests_cant": "Minimum over all trips of all lengths in all simulations.", "anchors": ["uxsim/Utilities/Utilities.py:construct_time_space_network", "uxsim/uxsim.py:Vehicle.__init__"]}
{"id": "C74", "title": "Grid networks", "statement": "generate_grid_network(W, imax, jmax) adds imax*jmax nodes named and placed by their indices with flow capacity 1.6 and exactly one link from each node to each of its neighbours, 2((imax-1)jmax+imax(jmax-1)) in all, and changes nothing that was there. It does not raise if the names are free and the link arguments are valid. Every node is reachable from every other along |i-i'|+|j-j'| links and, in an empty world, not along fewer.", "quantifier": "all worlds, grid sizes, link arguments", "why_tests_cant": "All sizes; minimality over all ways.", "anchors": ["uxsim/Utilities/Utilities.py:generate_grid_network"]}
{"id": "C75", "title": "Departure time in seconds", "statement": "departure_time_in_second of every vehicle is the time of the step departure_time, and neither ever changes.", "quantifier": "all histories, vehicles", "why_tests_cant": "All histories.", "anchors": ["uxsim/uxsim.py:Vehicle.__init__", "uxsim/uxsim.py:World.adddemand"]}
{"id": "C76", "title": "C++ engine: actual travel times are lazy but exact", "statement": "In the C++ engine, which only appends travel-time records and replays them when the array is read, every read of traveltime_real returns exactly what writing each record at once would give, for every order of records and reads; entry i is the value of the last record that starts at or before i.", "quantifier": "all links, all sequences of records and reads", "why_tests_cant": "All interleavings of records and reads.", "anchors": ["uxsim/trafficpp/traffi.cpp:Link::ensure_traveltime_real", "uxsim/trafficpp/traffi.cpp:Vehicle::end_trip"]}
{"id": "C77", "title": "C++ engine: shortest paths", "statement": "route_search_all of the C++ engine computes for every pair of nodes the least cost of a walk over the positive finite entries of the cost matrix and a next node that starts such a walk; its queue is empty within n*n+1 pops, and in exact arithmetic following the next nodes reaches the destination.", "quantifier": "all cost matrices", "why_tests_cant": "All graphs and costs.", "anchors": ["uxsim/trafficpp/traffi.cpp:World::route_search_all"]}
{"id": "C78", "title": "C++ engine: cost matrix with parallel links", "statement": "The cost between two nodes used for route search in the C++ engine is the mean of the costs of all parallel links between them, and closing one of them (capacity_in = 0) leaves the others usable.", "quantifier": "all networks and link orders", "why_tests_cant": "All multigraphs.", "anchors": ["uxsim/trafficpp/traffi.cpp:World::update_adj_time_matrix"]}
{"id": "C79", "title": "C++ engine: vehicles are never lost or duplicated", "statement": "In every world reachable through the bindings of the C++ engine (any network, demand, control actions, chunking of main_loop, number of threads, also after an exception) every vehicle is exactly where its state says: waiting vehicles exactly once in the generation queue of their origin, running ones exactly once in the queue of the link they point to, others in no queue; leader and follower pointers are those of the queue; the link lists of nodes agree with the ends of the links; and after a completed main_loop the registries vehicles_running and vehicles_living are exactly the running and the unfinished vehicles.", "quantifier": "all reachable worlds, all orders of the parallel loop iterations", "why_tests_cant": "All networks, demands, thread interleavings of the loop iterations and run lengths.", "anchors": ["uxsim/trafficpp/traffi.cpp:World::main_loop", "uxsim/trafficpp/traffi.cpp:Node::transfer", "uxsim/trafficpp/traffi.cpp:Node::generate", "uxsim/trafficpp/traffi.cpp:Vehicle::end_trip"]}
{"id": "C80", "title": "C++ engine: results do not depend on the number of threads", "statement": "Whatever the order in which the iterations of the parallel loops of a time step take effect, main_loop of the C++ engine produces the same world and the same exception; the iterations of each loop read and write separate objects only, apart from reading globals and the network.", "quantifier": "all reachable worlds, all permutations of the iterations of all five parallel loops in every time step", "why_tests_cant": "The number of interleavings is unbounded and depends on the machine.", "anchors": ["uxsim/trafficpp/traffi.cpp:World::main_loop"]}
{"id": "C81", "title": "C++ engine: departures and chunked execution", "statement": "Running main_loop to a and then to b equals running to b at once; a vehicle starts to wait at the first time step of the run with timestep*delta_t >= departure_time, never earlier; a completed call advances the time step exactly to the requested one, capped by total_timesteps.", "quantifier": "all reachable worlds, all schedules, all a <= b", "why_tests_cant": "All worlds and all ways of splitting a run.", "anchors": ["uxsim/trafficpp/traffi.cpp:World::main_loop"]}
{"id": "C82", "title": "C++ engine: the cumulative curves match the vehicles on each link", "statement": "At the end of every time step arrival_curve - departure_curve of a link is delta_n times the number of vehicles in its queue; both curves are non-decreasing, departures never exceed arrivals, and the entries of past time steps are never changed by later runs. When main_loop throws, the entries of the failed time step still match the queues.", "quantifier": "all worlds produced by calls that did not throw and did not shorten the simulation below the current time step, with multiples of delta_n representable; all schedules, all links, all time steps", "why_tests_cant": "All networks, demands, random streams and thread orders.", "anchors": ["uxsim/trafficpp/traffi.cpp:Link::update", "uxsim/trafficpp/traffi.cpp:Node::transfer", "uxsim/trafficpp/traffi.cpp:Vehicle::end_trip"]}
{"id": "C83", "title": "C++ engine: the life of a vehicle", "statement": "No call moves a vehicle back in the order home, wait, run, ended or aborted, and a run leaves a vehicle whose trip is over untouched. A vehicle leaves home at or after its departure time; a finished trip has the arrival time of a time step already reached, not before its departure, and the difference as travel time; every other vehicle has -1. A trip ends only on a link that leads to the vehicle's destination and is aborted only on a link that leads to a dead end other than the destination. The engine's count of completed trips is the number of vehicles whose trip is over (aborted ones included).", "quantifier": "all worlds that calls of the bindings can produce, also after exceptions; all schedules, vehicles and random streams", "why_tests_cant": "All networks, demands, random streams, thread orders and sequences of calls.", "anchors": ["uxsim/trafficpp/traffi.cpp:Vehicle::update", "uxsim/trafficpp/traffi.cpp:Vehicle::end_trip", "uxsim/trafficpp/traffi.cpp:World::trips_completed_count"]}
{"id": "C84", "title": "C++ engine: every run is a history of passages, first-in first-out on each link", "statement": "What a completed call of main_loop does to queues, positions, cumulative curves and travel-time records is the effect of one list of passages in the order of time. Each vehicle's passages lead from the link it was on to the link it is on, along links of the network that join, starting at its origin and ending on a link that leads to its destination or to a dead end. On each link the vehicles leave in the order in which they entered; every vehicle that leaves adds exactly one travel-time record, holding the time step of its entry and the time between entry and exit. The curves recorded by the run count these passages.", "quantifier": "all worlds produced by calls of the bindings, all completed runs, all schedules of the parallel loops, all links and vehicles; curves: worlds whose earlier runs did not throw, multiples of delta_n representable", "why_tests_cant": "All networks, demands, random streams and thread orders, over runs of any length.", "anchors": ["uxsim/trafficpp/traffi.cpp:Node::generate", "uxsim/trafficpp/traffi.cpp:Node::transfer", "uxsim/trafficpp/traffi.cpp:Vehicle::end_trip", "uxsim/trafficpp/traffi.cpp:Link::set_travel_time"]}
{"id": "C85", "title": "C++ engine: capacities of links and nodes are respected in every time window", "statement": "In any window of k time steps of a completed run, the vehicles that enter a link are at most the greatest value of the counter plus k*capacity_in*delta_t; the same holds for vehicles that move out of it to another link (capacity_out) and for those that move through a node with a flow capacity. The counters never become negative and never exceed the larger of their first value and delta_n*lanes + capacity*delta_t. A new link starts with one time step's worth of its capacity (twice the link capacity per second when no inflow capacity is given).", "quantifier": "all worlds produced by calls of the bindings whose counters are not negative, all completed runs and schedules, all links with capacity below 10e9 and nodes with flow capacity; exact arithmetic", "why_tests_cant": "Every window of every run has to be examined.", "anchors": ["uxsim/trafficpp/traffi.cpp:Link::update", "uxsim/trafficpp/traffi.cpp:Node::flow_capacity_update", "uxsim/trafficpp/traffi.cpp:Node::transfer", "uxsim/trafficpp/traffi.cpp:Node::generate"]}
{"id": "C86", "title": "C++ engine: no vehicle passes a red light; phases cycle with fixed durations", "statement": "Whenever a vehicle moves from link to link through a node with two or more phases, the phase the node records for that time step is one of the link's signal groups. One phase is recorded for each time step, phases follow in cyclic order and stay valid, and a phase that has just begun lasts exactly floor(green/delta_t)+1 time steps.", "quantifier": "all worlds produced by calls of the bindings, all completed runs and schedules, all nodes, plans and passages; duration: exact arithmetic", "why_tests_cant": "Needs every passage and every ratio of green time to time step.", "anchors": ["uxsim/trafficpp/traffi.cpp:Node::signal_update", "uxsim/trafficpp/traffi.cpp:Node::transfer"]}
{"id": "C87", "title": "C++ engine: vehicles stay on their link and keep the jam spacing, so links hold a bounded number of vehicles", "statement": "In every world produced by calls that did not throw, that give no link a negative length or spacing and change no jam spacing of an occupied link, every vehicle on a link is between 0 and the link's length, and at least delta_per_lane*delta_n behind the vehicle that is as many places ahead of it as the link has lanes. Hence a link holds at most lanes*(length/(delta_per_lane*delta_n) + 1) platoons. (Without the condition on jam spacings it is false.)", "quantifier": "all worlds produced by such calls of the bindings, all networks, demands, random streams, thread schedules, all monotone rounding functions; bound on the number of vehicles: exact arithmetic", "why_tests_cant": "Needs every vehicle at every time step of every run under every thread order.", "anchors": ["uxsim/trafficpp/traffi.cpp:Vehicle::car_follow_newell", "uxsim/trafficpp/traffi.cpp:Vehicle::update", "uxsim/trafficpp/traffi.cpp:Node::generate", "uxsim/trafficpp/traffi.cpp:Node::transfer", "uxsim/trafficpp/traffi.cpp:Link::change_jam_density"]}
{"id": "C88", "title": "C++ engine: one time step moves each vehicle by Newell's car-following law", "statement": "In one time step every vehicle that stays on its link moves to min(length, max(x, min(x + u*delta_t, x_leader - delta_per_lane*delta_n))), where x_leader is the position before the step of the vehicle as many places ahead as the link has lanes; the first vehicles of the lanes, and possibly those whose leader leaves the link in that step, move without the leader term. It never moves backwards, further than at free-flow speed or beyond the end.", "quantifier": "all worlds produced by such calls of the bindings, all completed time steps, all schedules of the parallel loops, all links and vehicles, all monotone rounding functions", "why_tests_cant": "The law must hold for each vehicle, whatever the order in which threads move leaders and followers.", "anchors": ["uxsim/trafficpp/traffi.cpp:Vehicle::car_follow_newell", "uxsim/trafficpp/traffi.cpp:Vehicle::update", "uxsim/trafficpp/traffi.cpp:World::main_loop"]}
{"id": "C89", "title": "C++ engine: reconstructed vehicle logs are those of the time steps in which the entries were made", "statement": "Times and states of log entries are not stored but reconstructed from four counters per vehicle. For every vehicle the reconstructed times and states are those of the time step in which the entry was made. The log has exactly one entry for each time step since departure (first HOME, then WAIT, then RUN, without gaps) plus one entry at the end of the trip, entries name a link exactly in RUN, no entry precedes the departure time, and n_missing is the time step of the first entry.", "quantifier": "all worlds with logging produced by calls of the bindings that did not throw, all vehicles and entries, all runs, chunks and schedules, all monotone rounding functions; n_missing: exact arithmetic", "why_tests_cant": "A missed or doubled update of a single vehicle in some order of threads would shift all later times; every history has to be covered.", "anchors": ["uxsim/trafficpp/traffi.cpp:Vehicle::log_data", "uxsim/trafficpp/traffi.cpp:Vehicle::log_t_at", "uxsim/trafficpp/traffi.cpp:Vehicle::log_state_at", "uxsim/trafficpp/traffi.cpp:World::main_loop"]}
{"id": "C90", "title": "C++ engine: the rows of a vehicle log are a possible journey and give distance_traveled", "statement": "In the log of every vehicle the first entry on the road is at position 0 of a link that leaves the origin. From then on, between consecutive entries, the vehicle is on the same link, or on a link that starts where the previous one ends, and the logged speed times delta_t is the distance driven in between (to within the 1e-9 tolerance for reaching the end of a link). For a vehicle on the road the last entry is its place and lane at the beginning of the last time step, and distance_traveled is the sum of the distances on each link between entries, leaving out the distance driven on a new link in the time step of entering it. (So it is false that distance_traveled of a completed trip is the length of the links passed.)", "quantifier": "all worlds with logging produced by calls of the bindings that did not throw, all vehicles and entries, all runs and schedules; exact arithmetic; distance: networks without links from a node to itself", "why_tests_cant": "A relation between all consecutive entries of all vehicles in all traffic states, under every thread order.", "anchors": ["uxsim/trafficpp/traffi.cpp:Vehicle::log_data", "uxsim/trafficpp/traffi.cpp:Vehicle::update", "uxsim/trafficpp/traffi.cpp:Node::transfer", "uxsim/trafficpp/traffi.cpp:Node::generate"]}
{"id": "C91", "title": "C++ engine: the enter log and the travelled route used by the DTA solvers are the way of the vehicle", "statement": "The links in the enter log of a vehicle, and in the route that dta_get_traveled_route returns, form a way through the network that starts at the origin; the entry times strictly increase. In networks without links from a node to itself there is exactly one entry for every link entered, and the last entry of a vehicle on the road is its present link with the time at which it entered it. (With such links entries are missing.)", "quantifier": "all worlds with logging produced by calls of the bindings that did not throw, all vehicles, all runs and schedules; exact arithmetic", "why_tests_cant": "The route is reconstructed from the log alone; a missed or shifted entry in some traffic state would give the solvers a wrong route.", "anchors": ["uxsim/trafficpp/traffi.cpp:World::build_enter_log_data", "uxsim/trafficpp/dta_solver.cpp:dta_get_traveled_route", "uxsim/trafficpp/traffi.cpp:Vehicle::log_data"]}
{"id": "C92", "title": "C++ engine: enforced routes are followed and do not throw", "statement": "A vehicle whose route was enforced before its departure follows it: on the road it is on the link of the route whose number is the number of links entered before, its enter log is the beginning of the route as far as it has got, and a trip that ended at a destination that only the last link reaches used exactly the route. If every vehicle is free to choose, without links to avoid, or was given before departure a way from its origin to its destination, then main_loop does not throw, whatever it is called with. (A route enforced during the trip is not followed from the present place: a correct remaining way makes the simulation throw.)", "quantifier": "all worlds produced by calls of the bindings, all vehicles, all runs, chunks and schedules; logs: completed calls, exact arithmetic, networks without links from a node to itself", "why_tests_cant": "The index into the route must fit the links entered in every traffic state and thread order, including capacity blocking at nodes; a single mismatch throws or sends the vehicle elsewhere.", "anchors": ["uxsim/trafficpp/traffi.cpp:Vehicle::route_next_link_choice", "uxsim/trafficpp/traffi.cpp:Vehicle::enforce_route", "uxsim/trafficpp/traffi.cpp:Node::transfer", "uxsim/trafficpp/traffi.cpp:Node::generate"]}
{"id": "C93", "title": "C++ traffic assignment: link travel times and route costs", "statement": "The travel time of a link used by the C++ DTA solvers at a time t is the record of the vehicle that entered the link last among those which entered up to the time step of t and have left (the free-flow time if there is none); times outside the simulation count as its first or last time step. The time of a route is the sum over its links, each at the time at which a vehicle driving it would enter the link; the DUE cost adds the tolls at these times, the cost of the route driven the tolls at the times recorded. Without toll series both costs of the route driven agree. The time of the route driven is the time the vehicle took if no other vehicle entered one of its links after it in the same time step. (Otherwise it may be another vehicle's time, and with toll series the two costs of the same route may differ.)", "quantifier": "all worlds produced by calls of the bindings, all links, times, routes and toll series; exact arithmetic", "why_tests_cant": "Costs depend on records written in the order of exits and read lazily; a wrong index would shift the cost of some routes by a time step and still converge to plausible results.", "anchors": ["uxsim/trafficpp/dta_solver.h:dta_get_actual_travel_time", "uxsim/trafficpp/dta_solver.h:dta_get_toll", "uxsim/trafficpp/dta_solver.cpp:dta_compute_route_travel_time", "uxsim/trafficpp/dta_solver.cpp:dta_compute_route_cost_due", "uxsim/trafficpp/dta_solver.cpp:dta_route_swap_due", "uxsim/trafficpp/traffi.cpp:Link::ensure_traveltime_real"]}
{"id": "C94", "title": "C++ engine: congestion externality", "statement": "The externality the C++ engine estimates for a vehicle that enters a link in a time step is the time between the departure of the vehicle and the last time step with fewer departures before it, times the vehicles which enter after it while the congestion lasts: as long as every entering vehicle needs more than 1.01 times the free-flow time and somebody is on the link when it leaves. It is never negative, 0 without congestion and after the last time step, and the vehicles counted are those that entered in the run. The DSO cost of a route is its time plus the externalities of its links at the times at which they are entered, which is also its time plus the estimate for the route, even where both functions advance the time differently. (A vehicle in a queue whose followers leave nobody behind is charged nothing.)", "quantifier": "all worlds produced by calls of the bindings, all links, time steps, routes and times; exact arithmetic; nonnegativity: completed calls", "why_tests_cant": "The scans depend on the shape of the curves and of the travel times over the whole simulation; a wrong boundary changes the charge of a few vehicles by one headway.", "anchors": ["uxsim/trafficpp/traffi.cpp:Link::estimate_congestion_externality", "uxsim/trafficpp/traffi.cpp:World::estimate_congestion_externality_route", "uxsim/trafficpp/dta_solver.cpp:dta_compute_route_cost_dso"]}
{"id": "C95", "title": "C++ traffic assignment: a day", "statement": "The route of a finished trip, as the C++ assignment reads it from the log, is a way from the origin to the destination. A vehicle that may change takes the first cheapest route of its set if one is cheaper than the route it drove, and keeps its route otherwise; a vehicle that may not change keeps it. Unfinished trips are given no route, trips without a route set the route they drove, trips on none of the routes given from outside the first of these. For users the costs are those of C93, for the system those of C94. Draws are made only for vehicles whose costs decide; with a given number of changes exactly that many vehicles may change. The number of changes is at most the number of potential changes, and this is 0 exactly if every vehicle whose costs decide is on a cheapest route, exactly if the time gap is 0. On a new day of the same scenario the vehicles of finished trips have these routes, as ways to their destinations, the others are free, and the run does not throw. (Users with a series of tolls may be counted as changing to the route they are on; without vehicle logs nobody changes and nobody is given a route.)", "quantifier": "all worlds produced by completed calls of the bindings with vehicle logs, all route sets of ways, all draws and shuffles; exact arithmetic", "why_tests_cant": "The choice depends on the costs of all routes of all vehicles; that the next day cannot throw depends on the logs of every vehicle being complete ways.", "anchors": ["uxsim/trafficpp/dta_solver.cpp:dta_route_swap_due", "uxsim/trafficpp/dta_solver.cpp:dta_route_swap_dso", "uxsim/trafficpp/dta_solver.cpp:dta_batch_enforce_routes", "uxsim/trafficpp/dta_solver.cpp:dta_get_traveled_route"]}
{"id": "C96", "title": "C++ traffic assignment: the solvers", "statement": "If the worlds built for the days have the same links and trips, exact arithmetic, vehicle logs and a vehicle, and the route sets consist of ways, then a new solver of the C++ engine never throws for a positive number of iterations: it simulates as many days, the first without given routes; on every later day each vehicle whose trip ended the day before has the route decided then, a way to its destination, and the others are free. The solution for users is the last day; the solution for the system is the first of the complete days with the least average travel time, and there is none only if no day is complete. Without iterations both throw. (A second call of the solver for the system on the same object throws on the first day if that is complete; its solution can be the first day, which is not bound to the route sets given by the user.)", "quantifier": "all sequences of worlds produced by completed calls of the bindings with the same scenario, all schedules, draws, shuffles, averages and numbers of iterations", "why_tests_cant": "That no day throws depends on the logs of all vehicles of all earlier days; the comparison of days goes wrong only for particular orders of averages and unfinished trips.", "anchors": ["uxsim/DTAsolvers/DTAsolvers_cpp_adapter.py:CppSolverDUE.solve", "uxsim/DTAsolvers/DTAsolvers_cpp_adapter.py:CppSolverDSO_D2D.solve", "uxsim/trafficpp/dta_solver.cpp:dta_batch_enforce_routes"]}
{"id": "C97", "title": "C++ engine: lanes", "statement": "In the C++ engine the vehicles on a link take its lanes in turn: every lane number is below the number of lanes, and the vehicle behind is in the next lane, after the last lane in the first. So a vehicle's leader is the nearest vehicle ahead of it in its own lane, its follower the nearest one behind it in that lane, and every lane holds the number of vehicles of the link divided by its lanes, rounded up or down. A vehicle never changes its lane while it stays on a link. The log of a vehicle names a lane of the link it names, or neither.", "quantifier": "all worlds produced by the bindings, whether or not a run threw; all links, vehicles, log entries and schedules", "why_tests_cant": "That the vehicle as many places ahead as there are lanes is in the same lane depends on all entries and exits so far, also of vehicles that leave a link and enter it again; a wrong lane shows only on links with several lanes.", "anchors": ["uxsim/trafficpp/traffi.cpp:Node::generate", "uxsim/trafficpp/traffi.cpp:Node::transfer", "uxsim/trafficpp/traffi.cpp:Vehicle::end_trip", "uxsim/trafficpp/traffi.cpp:Vehicle::log_data"]}
{"id": "C98", "title": "C++ engine: no vehicle is faster than the free flow", "statement": "In the C++ engine the travel time of a vehicle that has arrived is never less than the sum of length/speed limit over the links of the route that its log gives, and a vehicle on a link has been on its way for at least the free-flow times of the links before and of its distance on this link, counted from the time step after its departure time on (up to the tolerance of 1e-9 m within which the engine takes a vehicle to be at the end of a link). The distance carried over a node within a time step is converted to the speed of the next link and so gains no time.", "quantifier": "all worlds produced by calls which did not throw and change no jam spacing of an occupied link, all vehicles at home in them, all sequences of completed runs and schedules, exact arithmetic, positive speeds, links not shorter than 1e-9 m", "why_tests_cant": "The bound compares a sum over a whole trip with the clock; a carry-over which is converted by the wrong speed gains a fraction of one time step per link and is seen only on routes with links of different speeds.", "anchors": ["uxsim/trafficpp/traffi.cpp:Vehicle::car_follow_newell", "uxsim/trafficpp/traffi.cpp:Vehicle::update", "uxsim/trafficpp/traffi.cpp:Node::transfer", "uxsim/trafficpp/traffi.cpp:Node::generate", "uxsim/trafficpp/traffi.cpp:Vehicle::end_trip"]}
{"id": "C99", "title": "C++ engine: speeds and recorded travel times keep to the speed limits", "statement": "In the C++ engine every log entry of a vehicle on a link gives a position between 0 and the length of the link and a speed of at least 0 and at most the larger of the speed limit of this link and that of the link of the entry before. Between time steps no vehicle is faster than the limit of its own link, and no travel time that set_travel_time has recorded for a past time step is less than length/speed limit. (The log can exceed the limit of its own link: the speed logged just after a transfer mixes the two links.)", "quantifier": "all worlds produced by calls which did not throw and change no jam spacing of an occupied link, all vehicles at home in them (for the second part: all vehicles at home, clock at 0), all sequences of completed runs and schedules, exact arithmetic, positive speeds and time step, links not shorter than 1e-9 m", "why_tests_cant": "The speed is computed in two places, in Vehicle::update and in Node::transfer; a carry-over that is not reset or is scaled by the wrong limit shows only for some combinations of limits, remaining distances and leaders.", "anchors": ["uxsim/trafficpp/traffi.cpp:Vehicle::car_follow_newell", "uxsim/trafficpp/traffi.cpp:Vehicle::update", "uxsim/trafficpp/traffi.cpp:Vehicle::log_data", "uxsim/trafficpp/traffi.cpp:Node::transfer", "uxsim/trafficpp/traffi.cpp:Link::set_travel_time"]}
{"id": "C100", "title": "C++ engine: statistics agree with the vehicle logs", "statement": "In the C++ engine with vehicle logs on, the speed sum and the sample count of a link are the sum of the speeds and the number of the log entries, over all vehicles, that name the link; the sample count of a node is the number of time steps that vehicles have waited there for departure, as their logs are read; in every call of main_loop the speed-ratio sum of a link grows by the sum of the speeds logged there divided by its speed limit. So the average speed that print_simple_results prints and the wrapper exposes is the mean of the logged speeds over all time steps of all vehicles on the road or waiting, with 0 while they wait. The progress line shows the number of vehicles on the road times deltan and their mean speed. (The printed average speed ratio can be above 1.)", "quantifier": "all worlds produced by the bindings (for the node counts and the printed average: by calls which did not throw), all links, nodes, vehicles, runs and schedules; exact arithmetic", "why_tests_cant": "The counters are spread over links and nodes and are written at five places by vehicles in any order; tests compare a final average with a tolerance on a few scenarios, not every counter with every log of every network.", "anchors": ["uxsim/trafficpp/traffi.cpp:1060-1073", "uxsim/trafficpp/traffi.cpp:1571-1602", "uxsim/trafficpp/traffi.cpp:1616-1632", "uxsim/uxsim_cpp_wrapper.py:1295-1302"]}
{"id": "C101", "title": "C++ engine: the links a vehicle may choose", "statement": "In the C++ engine a vehicle without a specified route, whose preferred and avoided links were given before departure, enters only links that are not to be avoided and, where a preferred link begins, only preferred ones; with no_cyclic_routing it enters a link to a node it has passed only if all links open to it lead to such nodes. In hard_deterministic_mode the choice is the first link of highest preference; otherwise it is one of positive preference if there is one (unless the random number is 0, which can select a link of preference 0). A choice is made whenever a link is open and throws if links begin at the node but none is open, so a run does not throw if no vehicle can be without an open link. (A link both preferred and avoided makes a run throw although another link is not to be avoided.)", "quantifier": "all worlds produced by the bindings (for the whole enter log: by calls that did not throw, with logs on and without links from a node to itself), all vehicles, nodes, random streams, runs and schedules; exact arithmetic where times or preferences are compared", "why_tests_cant": "Which links are open depends on three filters, the whole past of the vehicle and random numbers; tests check single vehicles in fixed networks, not that no run of any network ever breaks a filter.", "anchors": ["uxsim/trafficpp/traffi.cpp:934-1030", "uxsim/trafficpp/traffi.cpp:155-165", "uxsim/trafficpp/traffi.cpp:368-378", "uxsim/trafficpp/traffi.cpp:868-880"]}
{"id": "C102", "title": "C++ engine: route preferences follow the shortest paths", "statement": "In the C++ engine, if the update weight (duo_update_weight, in gradual mode times delta_t/duo_update_time) is in [0,1], route preferences are in [0,1] and those of links from one node to different nodes add up to at most 1. The flag per destination gives the same weights as the Python rule: 1 as long as all preferences for it are 0. A time step multiplies the preferences by 1 minus the weight and adds the weight on the links of the shortest paths, if an update is due, and leaves them otherwise; after a search the tables hold the least costs, and from every node from which the destination can be reached a link leading nearer to it has at least the weight as preference, and more than all links to other nodes if the weight is above 1/2. (In gradual mode with duo_update_time shorter than a time step preferences can be negative and above 1.)", "quantifier": "all worlds produced by the bindings, all destinations, nodes, links and schedules; exact arithmetic", "why_tests_cant": "Preferences depend on the whole history of link travel times; tests look at a few final preferences or at resulting travel times, not at the invariant in every state.", "anchors": ["uxsim/trafficpp/traffi.cpp:1486-1553", "uxsim/trafficpp/traffi.cpp:1832-1854", "uxsim/trafficpp/traffi.cpp:1317-1385", "uxsim/uxsim.py:1620-1660"]}
{"id": "C103", "title": "In the deterministic mode of the C++ engine random streams do not matter", "statement": "If hard_deterministic_mode is set, two C++ worlds built and run by the same calls but with different random seeds, and any orders of the iterations of parallel loops, have equal vehicles, links, nodes and global state and throw the same exceptions; no random number is drawn at all. Without the mode the same calls with another seed can send a vehicle over another link.", "quantifier": "all worlds reachable through the bindings with any networks, vehicles and edits, all random streams, all schedules of parallel loops, all rounding functions, any number of time steps", "why_tests_cant": "A test compares runs for some seeds on some networks; a draw that is made only in a rare branch, or a stream that is consumed but has no effect yet, is not seen.", "anchors": ["uxsim/trafficpp/traffi.cpp:276", "uxsim/trafficpp/traffi.cpp:325", "uxsim/trafficpp/traffi.cpp:1017", "uxsim/trafficpp/traffi.cpp:1291"]}
{"id": "C104", "title": "C++ engine: no vehicle is held up without reason", "statement": "In every time step of the C++ engine, a vehicle that has arrived first at the end of its link and wants to continue on another link is transferred, provided the signal is green and its link has outflow capacity left, unless as many vehicles as that link has lanes are transferred to it, or it has no room left once the node is done, or the capacity of the node is exhausted. Of the vehicles waiting to depart at a node the first ones depart, in their order and at most as many as the links from the node have lanes; others are left only if that many have departed, or the first of them has no room on the link it has chosen, or there is no link, or an exception is thrown. The restriction to the first vehicle on its link is needed: with several lanes the second one may be held up next to an empty link.", "quantifier": "all reachable worlds, all orders of the parallel iterations, all nodes, links and vehicles (links that end where they start excepted for transfers)", "why_tests_cant": "Tests compare aggregate flows with loose tolerances; a node that serves one slot too few delays single vehicles in some constellations of lanes, signals and random orders only.", "anchors": ["uxsim/trafficpp/traffi.cpp:105-189", "uxsim/trafficpp/traffi.cpp:239-445"]}
{"id": "C105", "title": "C++ engine: movement beyond the end of a link is carried over", "statement": "In every completed time step of the C++ engine each vehicle moves as far as Newell's law lets it behind the vehicle as many places ahead as its link has lanes, but not beyond the end of the link; if it could have moved further, the exact remainder is remembered. The remainder is kept until the node at the end of the link is served. A vehicle that a node lets into another link has arrived at the end of a link that ends there, and is put where the time for its remainder takes it at the speed of the new link, at most to the jam spacing behind the former position of the vehicle as many places ahead as the new link has lanes, between the ends of the new link; the remainder is then zero. Without rounding and with nobody ahead no time is lost, unless the new link is shorter than the remainder.", "quantifier": "all worlds reachable by careful calls, all orders of the parallel iterations, all links, nodes and vehicles (links that end where they start excepted for entries)", "why_tests_cant": "Tests check travel times within tolerances of several time steps; a lost or wrongly scaled remainder changes positions by less than one step.", "anchors": ["uxsim/trafficpp/traffi.cpp:398-419", "uxsim/trafficpp/traffi.cpp:798-823"]}
{"id": "C106", "title": "Newell's law and movement beyond the end of a link", "statement": "In a time step of the Python engine that does not raise, a vehicle on a link at the end of the step was on it after the transfers, and has moved from its position then exactly as far as Newell's law lets it with respect to the vehicle as many places ahead as the link has lanes, at most to the end of the link; what it could have moved beyond the end is remembered, otherwise the remembered rest stays. Position and rest stay as they are until it is the turn of the node at the end of the link. A vehicle let into a link is put where its rest, driven at the speed of the new link, takes it, at most to the jam spacing behind the former position of the vehicle as many places ahead as there are lanes and not beyond the end of the link, and the rest is used up. Vehicles leave a link from the first on and nothing happens to those behind. Without rounding and with nobody ahead no time is lost in crossing, unless the next link is shorter than the rest. A vehicle that has been waiting at the end of a link has the movement of a whole time step left, so it may get twice as far in a time step as the free-flow speed allows.", "quantifier": "all reachable worlds, roundings, parameters, nodes, links and vehicles", "why_tests_cant": "The law relates positions of all vehicles before and after the nested loops over nodes, slots and vehicles, for every network and every state; tests look at a few trajectories.", "anchors": ["uxsim/uxsim.py:303-412", "uxsim/uxsim.py:1155-1215", "uxsim/uxsim.py:1251-1265"]}
{"id": "C107", "title": "No vehicle is held up without reason (Python engine)", "statement": "A vehicle that waits first at the end of its link and wants to go on to another link is transferred in the time step if the signal is green and its link has outflow capacity left, unless as many vehicles as the other link has lanes are transferred to that link, or that link has no room left when the node is done, or the capacity of the node is exhausted. Of the vehicles that wait to depart at a node the first ones, in their order, are put on links from it, at most as many as these links have lanes together. Others are left only if that many have departed or the link chosen for the first of them has no room. It does matter that the vehicle is the first on its link: one that waits next to it on another lane can be left behind although its next link is empty, if the slot for that link is served too early.", "quantifier": "all reachable worlds, all vehicles, links and nodes, all orders in which the slots are shuffled and all merge choices (links that end at the same node excepted for transfers)", "why_tests_cant": "Work conservation is a statement about every combination of occupancy, capacities, signals and random orders; a vehicle that is delayed by one step without reason still arrives, so end-to-end tests see nothing.", "anchors": ["uxsim/uxsim.py:232-301", "uxsim/uxsim.py:303-412"]}
{"id": "C108", "title": "Vehicle registries of the C++ mode hold the right vehicles", "statement": "In C++ mode, between any two calls, VEHICLES holds every vehicle of the engine exactly once under its own name, names are distinct and ids count 0, 1, 2, …; VEHICLES_LIVING holds exactly the vehicles whose trip is not over and VEHICLES_RUNNING exactly those on a link; addVehicle refuses a used name and otherwise, in exact arithmetic, makes one vehicle that departs at the last time step not after the given time and is the last in VEHICLES. This needs custom names that are not numbers: a vehicle named \"1\" is dropped from VEHICLES when the vehicle with number 1 is made. With rounding one addVehicle call can make two vehicles, or none and raise IndexError.", "quantifier": "all sequences of calls, all schedules of the engine, all roundings (except where exact arithmetic is stated)", "why_tests_cant": "The registries are updated in three places over arbitrary histories; the failures need particular names or particular floating-point values.", "anchors": ["uxsim/uxsim_cpp_wrapper.py:CppWorld.addVehicle", "uxsim/uxsim_cpp_wrapper.py:CppWorld._register_new_cpp_vehicles", "uxsim/uxsim_cpp_wrapper.py:CppWorld._sync_from_cpp", "uxsim/trafficpp/traffi.cpp:add_demand"]}
{"id": "C109", "title": "exec_simulation of the C++ mode makes the right time steps", "statement": "In C++ mode the clock T is that of the engine; exec_simulation returns 1 exactly if all time steps have been made, 0 otherwise, and then check_simulation_ongoing is true; after the end further calls leave the engine as it is. In exact arithmetic a call makes exactly the time steps it asks for, cut at the end, a run in pieces ends with the same engine or engine exception as a run at one go, and the calls refuse, stop and return the same as those of the Python engine. If no tmax is given, the simulation ends in exact arithmetic at a full half hour, more than half an hour after the time step of the last departure and at most one hour after the last departure, or after one hour if all vehicles depart in the first time step. With rounding a call for one more time step can make none and return 0, so that a loop over check_simulation_ongoing never ends.", "quantifier": "all scenarios, all call arguments, all schedules of the engine", "why_tests_cant": "Boundary arithmetic over all durations; the endless loop needs particular floating-point values.", "anchors": ["uxsim/uxsim_cpp_wrapper.py:CppWorld.exec_simulation", "uxsim/uxsim_cpp_wrapper.py:CppWorld.check_simulation_ongoing", "uxsim/trafficpp/traffi.cpp:World::main_loop"]}
{"id": "C110", "title": "Vehicle logs of the C++ mode as seen from Python", "statement": "In C++ mode, in exact arithmetic, a vehicle log read for the first time shows one entry for each time step from the start of the simulation (at home, waiting, on the road) and one for the end of the trip, and nothing for a vehicle that has not departed; entries name a link exactly on the road and otherwise have position and speed -1; on the road position and speed are those of a possible journey from the origin on; log_t_link starts with the departure and ends with the arrival of an ended trip; the call that makes the last time step fills in the logs not read before. A log once read never changes again, so one that is read before the end stays incomplete.", "quantifier": "all sequences of calls, all vehicles, all schedules of the engine", "why_tests_cant": "Quantifies over histories and over the moment of the first access.", "anchors": ["uxsim/uxsim_cpp_wrapper.py:CppWorld._build_all_vehicle_log_caches", "uxsim/uxsim_cpp_wrapper.py:CppVehicle.log_t", "uxsim/trafficpp/traffi.cpp:World::build_all_vehicle_logs_flat_compact"]}
{"id": "C111", "title": "Spacing in the vehicle log of the C++ engine", "statement": "In the C++ engine with logging, after a completed run of at least one time step the last log entry of every vehicle on the road shows its position at the beginning of the time step and the spacing to the vehicle `lanes` places ahead of it in the queue of its link, or -1 if there is none. If the vehicle ahead has the larger id, this spacing is the difference of the two positions logged in the same time step. If it has the smaller id, the spacing is larger than this difference by the distance that the vehicle ahead drives in the time step, so that it is not the distance of the two vehicles at the logged time. If the vehicle ahead ended its trip in the time step, the entry is -1, or for a larger id the spacing before.", "quantifier": "for all worlds reached by calls that did not throw, all runs that do not throw, all schedules, all links and vehicles", "why_tests_cant": "Tests read log_s of a few vehicles with departure times in the order of their ids; the order of ids along a queue, trips that end in the step and lanes give unboundedly many cases.", "anchors": ["uxsim/trafficpp/traffi.cpp:Vehicle::log_data", "uxsim/trafficpp/traffi.cpp:World::main_loop", "uxsim/trafficpp/traffi.cpp:Vehicle::update"]}
{"id": "C112", "title": "Random routes of the C++ engine", "statement": "enumerate_k_random_routes_cpp: whatever numbers are drawn, if the search ends then every entry belongs to two different nodes and has at most k routes, all different; each is a list of links that leads from the one node to the other and passes no node twice. With links of positive length and speed and positive draws the search ends, and the keys are exactly the pairs of different nodes connected by links, also in a network without links. With k >= 1 and no parallel links the first route of every connected pair is a fastest one in free flow. With parallel links only the last one is ever used; a link of length 0 is not seen at all; if 0 is drawn again and again the search need not end.", "quantifier": "for all networks, all k (also 0 and negative), all numbers drawn in all iterations", "why_tests_cant": "Tests run small networks with one seed; the claims range over all networks and all random numbers, including the paths put together from the shortest-path trees of different sources.", "anchors": ["uxsim/trafficpp/traffi.cpp:World::enumerate_k_random_routes_cpp", "uxsim/trafficpp/traffi.cpp:World::route_search_all", "uxsim/trafficpp/dta_solver.cpp:dta_enumerate_od_route_sets_ids"]}
{"id": "C113", "title": "Link queries of the C++ mode count the vehicles that passed", "statement": "In exact arithmetic, for a time t in a time step already made, CppLink.arrival_count(t) and departure_count(t) are delta_n times the number of vehicles that entered and left the link in time steps that began at or before t; they do not decrease with t, num_vehicles_t(t) and inflow_between are not negative, and in the last time step made num_vehicles_t is the present num_vehicles. After the whole simulation the same holds for every t, also before 0 and after the end. During the simulation all counts for later times, including the present time, are 0. average_speed(t) is the length divided by the actual travel time, average_density(t) the number of vehicles divided by the length and average_flow(t) their product. At each moment 0 <= speed <= u, flow times length is delta_n times the sum of the speeds of the vehicles on the link, and num_vehicles_queue <= num_vehicles, where num_vehicles_queue counts delta_n for each vehicle below the speed limit.", "quantifier": "for all networks, demands and sequences of calls that do not throw, all thread schedules, links and real times", "why_tests_cant": "the times at which the array index is cut off or an entry is not yet written are a property of every pair of clock and query time; tests query a few times after the end of a simulation", "anchors": ["uxsim/uxsim_cpp_wrapper.py:CppLink.arrival_count", "uxsim/uxsim_cpp_wrapper.py:CppLink.departure_count", "uxsim/uxsim_cpp_wrapper.py:CppLink.inflow_between", "uxsim/uxsim_cpp_wrapper.py:CppLink.num_vehicles_t", "uxsim/uxsim_cpp_wrapper.py:CppLink.average_speed", "uxsim/uxsim_cpp_wrapper.py:CppLink.speed", "uxsim/trafficpp/traffi.cpp:Link::count_vehicles_in_queue"]}
{"id": "C114", "title": "Vehicles of the C++ mode show the trip the engine simulated", "statement": "CppVehicle.state is the state of the engine. In exact arithmetic arrival_time of a finished trip is the time step of the arrival and travel_time the seconds from the departure to it, not negative; of every other vehicle both are -1; departure_time is the time step in which the departure lies. flag_trip_aborted is 1 for every aborted trip, and otherwise only for a vehicle standing at a dead end other than its destination. link is the link whose queue holds the vehicle, None if it is not on the road. If the log of the vehicle was not read before the end of the simulation, traveled_route gives a way through the network that starts at the origin, the increasing times of entering its links, none before the departure, and if asked for the departure time in front and the arrival time (-1 if not arrived) at the end; it is the route that the DTA solver reads in C++.", "quantifier": "for all networks, demands and sequences of calls, all thread schedules and vehicles", "why_tests_cant": "states, flags and times are combined by the wrapper in several conversions whose branches depend on how and when a trip ended; tests look at a few finished trips", "anchors": ["uxsim/uxsim_cpp_wrapper.py:CppVehicle.state", "uxsim/uxsim_cpp_wrapper.py:CppVehicle.arrival_time", "uxsim/uxsim_cpp_wrapper.py:CppVehicle.travel_time", "uxsim/uxsim_cpp_wrapper.py:CppVehicle.flag_trip_aborted", "uxsim/uxsim_cpp_wrapper.py:CppVehicle.link", "uxsim/uxsim_cpp_wrapper.py:CppVehicle.traveled_route", "uxsim/trafficpp/traffi.cpp:Vehicle::end_trip"]}
{"id": "C115", "title": "OSM post-processing keeps a network usable and connected", "statement": "For a network whose links join known nodes and contain no loops, osm_network_postprocessing never raises, for every threshold, number of rounds and setting of enforce_bidirectional. The returned nodes are input nodes with unchanged coordinates; each link joins two different returned nodes and has lanes and speed of an input link; after at least one round there is at most one link per ordered pair, each node is an end of a link, lengths are the distances of the ends, and enforce_bidirectional gives each link its reverse. Two returned nodes are connected exactly if they were, and where one could drive one still can. As many rounds as nodes leave no link of length at most the threshold. With a loop the call can raise KeyError, and the default 5 rounds can leave short links.", "quantifier": "all loop-free networks, symmetric distances, thresholds, numbers of rounds", "why_tests_cant": "The merge map is rewritten link by link and its result depends on the order of links; tests on a few downloaded maps cannot exclude dangling links or lost connections on other maps.", "anchors": ["uxsim/OSMImporter/OSMImporter.py:OSMImporter.osm_network_postprocessing"]}
{"id": "C116", "title": "OSM import makes a network of the edges with a road type", "statement": "From the downloaded graph import_osm_data makes one link per edge with a road type, in order and direction, with the lanes and speed of the data or else the default picked for its type (at least one lane); its nodes are the ends of these edges, each once with its coordinates; so the result is a network that the post-processing accepts if no edge is a loop. Roads of the types trunk to tertiary get the default of their type; motorways do not: the code tests for 'mortorway' and gives them the default of other roads.", "quantifier": "all graphs, coordinates and default arguments", "why_tests_cant": "The import needs the network, so it is hardly tested; a wrong default shows only on roads without data.", "anchors": ["uxsim/OSMImporter/OSMImporter.py:OSMImporter.import_osm_data"]}
{"id": "C117", "title": "In the C++ mode Python and the engine agree on nodes and links", "statement": "After any sequence of successful addNode and addLink calls in the C++ mode, NODES and LINKS of Python and the vectors of the engine contain the same objects under the same numbers; names are distinct and both registries resolve a name to the same object; each link has the same end nodes in both. A call adds exactly one node or link, between the nodes its arguments mean; without auto_rename a used node name raises ValueError and changes nothing; addLink with auto_rename renames. addNode with auto_rename=True and a used name never succeeds but raises RuntimeError, and a link call with an unknown node leaves the two sides out of step.", "quantifier": "all sequences of calls, names, arguments; random suffixes that are not yet in use", "why_tests_cant": "two registries are kept in step by hand over every call; a test builds a few networks with fresh names only", "anchors": ["uxsim/uxsim_cpp_wrapper.py:CppNode.__init__", "uxsim/uxsim_cpp_wrapper.py:CppLink.__init__", "uxsim/uxsim_cpp_wrapper.py:CppWorld.get_node", "uxsim/trafficpp/traffi.cpp:World::get_node"]}
{"id": "C118", "title": "The second OpenStreetMap importer keeps the topology, the attributes and the settings", "statement": "For every table of roads: two road ends become the same node exactly if they agree after rounding, and every node is a road end. Every road yields, in order, one link in its direction if it is one-way and a pair of opposite links with equal length, speed and lanes otherwise. Speed and lanes given in the data are used; of a two-way road each direction gets half the lanes, at least one, losing at most one lane in total. Without data (or with override_osm_attributes) a road of one of the eight listed types or its _link junction gets the speed and, per direction, the lanes of its type, with the user's value taking precedence. Setting node capacities never fails and gives 1.6 veh/s and two lanes per lane of the widest adjacent link. Three things do not hold: a user setting for a key such as motorway_link is never used, the setting 'others' is divided by two for two-way roads unlike all other types, and the type of an untyped road is estimated from the links at its first end only.", "quantifier": "all tables of roads, rounding functions, string conversions, user settings", "why_tests_cant": "the tests of the importer need the network and look at a few cities; nodes are identified by rounding and the cases of missing data depend on the input", "anchors": ["uxsim/OSMImporter2/OSMImporter2.py:_extract_network_from_geodataframe", "uxsim/OSMImporter2/OSMImporter2.py:_attach_osm_nodes_links", "uxsim/OSMImporter2/OSMImporter2.py:osm_network_to_World"]}
{"id": "C119", "title": "Route sets and day logs of the C++ assignment solvers mean in Python what they mean in the engine", "statement": "Routes returned by the engine as flat arrays are read back unchanged. In every world built by addNode and addLink, the engine's route sets appear in Python under the names of exactly their origin, destination and links, in the same order, whatever the order of the hash table; route sets given by name reach the engine as the same sets by id, and an unknown node name raises KeyError. If every addVehicle call with a name adds one vehicle (always so in exact arithmetic), VEHICLES is in the order of the engine and route_log and cost_log hold for each vehicle under its name its own route and cost. If rounding makes a named addVehicle call create two vehicles, the logs of vehicles are swapped.", "quantifier": "all route sets incl. empty ones and empty routes, all built networks with any names, all sequences of wrapper calls, all rounding functions", "why_tests_cant": "an offset error shows only for particular shapes of route sets, the hash order is not fixed, and the order of VEHICLES depends on renaming after rounding", "anchors": ["uxsim/trafficpp/bindings.cpp:routes_to_csr", "uxsim/trafficpp/bindings.cpp:to_csr", "uxsim/trafficpp/bindings.cpp:batch_enforce_routes_csr", "uxsim/trafficpp/bindings.cpp:make_od_route_set_store", "uxsim/DTAsolvers/DTAsolvers_cpp_adapter.py:_build_od_name_dict_from_csr", "uxsim/DTAsolvers/DTAsolvers_cpp_adapter.py:_convert_od_routes_to_ids", "uxsim/DTAsolvers/DTAsolvers_cpp_adapter.py:_convert_flat_result_to_names"]}
{"id": "C120", "title": "Demand functions of the C++ mode generate the requested vehicles", "statement": "In the C++ mode, adddemand creates vehicles of which floor(k*r*dt/DELTAN) platoons depart in the first k steps of the window, r being the flow or the volume divided by the duration; these are the departures the Python mode generates from the same call; each new vehicle, and no other, gets the attribute. adddemand_nodes2nodes and adddemand_area2area give every pair of candidates an equal share; adddemand_point2point joins the nearest nodes, however far; adddemand_nodes2nodes2 and adddemand_area2area2 create exactly floor(volume/DELTAN) platoons, evenly spaced, between candidates, nodes2nodes2 never from a node to itself. The last two drop the attribute, and area2area2 can generate trips from a node to itself.", "quantifier": "every world produced by calls of the API, nodes, windows, flows, volumes, attributes, positions, radii, random draws; exact arithmetic", "why_tests_cant": "the floor law over all rates, windows and platoon sizes and all random draws is an infinite family; the tests of the C++ mode compare totals in a few scenarios", "anchors": ["uxsim/uxsim_cpp_wrapper.py:CppWorld.adddemand", "uxsim/uxsim_cpp_wrapper.py:CppWorld.adddemand_nodes2nodes2", "uxsim/uxsim_cpp_wrapper.py:CppWorld.adddemand_area2area2", "uxsim/trafficpp/traffi.cpp:add_demand"]}
{"id": "C121", "title": "Requests about routes and signals reach the C++ engine", "statement": "In the C++ mode, enforce_route, set_links_prefer and set_links_avoid give the engine exactly the links that were named, in order, for that vehicle and no other; the Python vehicle shows the same. The preferred and avoided links given to addVehicle reach every new vehicle. override_signal replaces the plan and the offset of that node only; phase and elapsed time go on if the phase exists in the new plan and no reset was asked for, and start anew otherwise, so that the phase is always one of the plan; each listed link gets green exactly in the phases whose group lists it, in Python and in the engine; wrong groups raise an exception and set no group. Findings: if one link is unknown, the engine keeps what it had, nothing is raised and the Python vehicle shows None; add_dest never reaches the engine; a call of override_signal that raises has replaced the plan; a link that no group lists keeps its old phases; lists given to addVehicle are not shown by the Python vehicle.", "quantifier": "every world in which Python and the engine agree on names (C117), vehicles, lists of links by name or object, plans, groups, offsets; exact arithmetic for offsets", "why_tests_cant": "the claim covers all lists of links, plans, groups and current phases; the errors are silent, so that no test notices them unless it compares with the engine", "anchors": ["uxsim/uxsim_cpp_wrapper.py:CppVehicle.enforce_route", "uxsim/uxsim_cpp_wrapper.py:CppVehicle.set_links_prefer", "uxsim/uxsim_cpp_wrapper.py:CppNode.override_signal", "uxsim/uxsim_cpp_wrapper.py:CppVehicle.add_dest"]}
{"id": "C122", "title": "Enter logs of links and route objects in the C++ mode", "statement": "In C++ mode, after the end of the simulation, vehicles_enter_log of a link has one entry for each time at which some vehicle entered the link according to its log_t_link, namely the vehicle with the largest index; average_travel_time_between(t0, t1) is in exact arithmetic the mean of the actual travel times over these times with t0 <= t < t1, each time counted once, and the free-flow travel time if there is none. Before the end it is always the free-flow travel time. CppRoute accepts exactly lists of links that follow each other (any list of links with trust_input) and never an unknown link; the travel time of a route in two parts is that of the first part plus that of the second from the end of the first on, and the details add up to it. The mean is not one over vehicles.", "quantifier": "all engine states, links and times; all worlds in which Python and the engine agree on names, all lists of links", "why_tests_cant": "Quantifies over all histories with several vehicles entering in one time step and over the moment of the query.", "anchors": ["uxsim/uxsim_cpp_wrapper.py:CppWorld._build_vehicles_enter_log", "uxsim/uxsim_cpp_wrapper.py:CppLink.average_travel_time_between", "uxsim/uxsim_cpp_wrapper.py:CppRoute", "uxsim/trafficpp/traffi.cpp:World::build_enter_log_data"]}
{"id": "C123", "title": "Flow parameters shown by link objects of the C++ mode", "statement": "In the C++ mode, after any sequence of calls, runs of the simulation included, the flow attributes of a link object (u, free_flow_speed, kappa, jam_density, tau, w, capacity, q_star, delta, delta_per_lane, number_of_lanes, length) are the numbers the engine uses for that link. In exact arithmetic with positive speed and reaction time they describe one triangular relation of flow and density: slope u up to density k_star, slope -w down to kappa, top q_star, where w and the spacings follow from the reaction time, the lanes and kappa. change_free_flow_speed and change_jam_density with a value that is not negative set that parameter, keep the independent ones and leave all other links alone; a negative value changes nothing. Findings: jam_density_per_lane keeps its first value after change_jam_density; a link with free_flow_speed 0 raises ZeroDivisionError after it has been added to the engine; assigning to u does not reach the engine.", "quantifier": "all sequences of calls (any network, demand, parameter change, run with any thread schedule, also runs ending with an exception), all links, all values except a jam density of 0", "why_tests_cant": "The claim covers all interleavings of changes, runs and edits and all parameter values.", "anchors": ["uxsim/uxsim_cpp_wrapper.py:CppLink.__init__", "uxsim/uxsim_cpp_wrapper.py:CppLink._read_from_cpp", "uxsim/uxsim_cpp_wrapper.py:CppLink.change_free_flow_speed", "uxsim/uxsim_cpp_wrapper.py:CppLink.change_jam_density", "uxsim/trafficpp/traffi.cpp:Link::change_free_flow_speed", "uxsim/trafficpp/traffi.cpp:Link::change_jam_density"]}
{"id": "C124", "title": "Scenarios from CSV files", "statement": "In both modes, load_scenario_from_csv makes exactly the calls its files describe: addNode with name and coordinates for each row of the first file, then addLink with name, ends, length, free-flow speed, jam density and merge priority for each row of the second, then adddemand with origin, destination, start, end, flow and, given a sixth column, volume for each row of the third, in the order of the files and without the title rows; then TMAX is set if given. What is written as such a file with any notation of numbers that float reads back is read as what was written. The first row of a node file that is too short or not a number ends the load with an exception, with the nodes of the rows before it in the world. In the Python mode the world then has exactly these nodes and links, found under their distinct names. Findings: a volume that cannot be read is ignored silently; if adddemand with a volume raises, it is called again without it in whatever state the first call left, so that a volume for start = end gives neither vehicles nor an exception; a blank line raises IndexError.", "quantifier": "all files (lists of rows), all number formats, all worlds of either mode, all implementations of the three calls", "why_tests_cant": "Tests load one or two sample files; the claim covers every file, every position of titles and bad rows and every outcome of the calls.", "anchors": ["uxsim/uxsim.py:World.load_scenario_from_csv", "uxsim/uxsim.py:World.generate_Nodes_from_csv", "uxsim/uxsim.py:World.generate_Links_from_csv", "uxsim/uxsim.py:World.generate_demand_from_csv", "uxsim/uxsim_cpp_wrapper.py:CppWorld.load_scenario_from_csv", "uxsim/uxsim_cpp_wrapper.py:CppWorld.generate_demand_from_csv"]}
{"id": "C125", "title": "The GPS-like log", "statement": "In the Python mode with logging in every time step and exact arithmetic, the rows that gps_like_log_to_pandas makes for a vehicle that was there before the first time step are what its log entries say, in order: time, point of the segment between the end nodes of the link in proportion to the position, speed; entries off the road and points that are exactly (-1, -1) are skipped. The table has the vehicles one after the other. Findings: a vehicle that ends its trip in the step in which it reaches its destination gets one more row for its last time and place with speed -1; with one living vehicle that was added during the simulation and has made a step, no table can be made at all (IndexError); in the C++ mode get_xy_coords ignores the time, so all rows of a vehicle, also those of entries off the road, show the same place: where it is now, and its origin when it is not on a link, also after arrival.", "quantifier": "all histories of API calls and time steps, all vehicles, all networks and coordinates", "why_tests_cant": "Tests of the tables check that they are not empty or compare one scenario; wrong places in the middle of a log, the surplus row and vehicles added late are not looked at.", "anchors": ["uxsim/analyzer.py:Analyzer.gps_like_log_to_pandas", "uxsim/uxsim.py:Vehicle.get_xy_coords", "uxsim/uxsim_cpp_wrapper.py:CppVehicle.get_xy_coords"]}
{"id": "C126", "title": "The two engines follow the same rules", "statement": "From worlds that hold the same traffic (same clock, same view of every link, vehicle and node) the Python engine and the C++ engine come to worlds that hold the same traffic again, for each rule of a time step: the test whether a link can be entered, car following, movement inside a link, departure from an origin queue, end of a trip, the test and the choice of the vehicle to transfer, one transfer, the whole transfer at a node, departures at a node, refilling of link and node capacities, and the change of signal phases. Choices are covered in the deterministic mode. The differences that are needed as hypotheses are stated: nonnegative parameters, capacities below 10e9 and exact products of platoon size and lanes.", "quantifier": "all pairs of worlds that hold the same traffic, all links, nodes and vehicles; rounding is any monotone idempotent function unless stated", "why_tests_cant": "The comparison tests of the repository run both engines on a few scenarios with random choices and accept results within some percent, so a deviating rule that changes little passes.", "anchors": ["uxsim/uxsim.py:Node.transfer", "uxsim/uxsim.py:Node.generate", "uxsim/uxsim.py:Node.signal_control", "uxsim/uxsim.py:Node.flow_capacity_update", "uxsim/uxsim.py:Link.update", "uxsim/uxsim.py:Vehicle.carfollow", "uxsim/uxsim.py:Vehicle.end_trip", "uxsim/trafficpp/traffi.cpp:Node::transfer", "uxsim/trafficpp/traffi.cpp:Node::generate", "uxsim/trafficpp/traffi.cpp:Link::update", "uxsim/trafficpp/traffi.cpp:Vehicle::car_follow_newell", "uxsim/trafficpp/traffi.cpp:Vehicle::end_trip"]}
{"id": "C127", "title": "Both engines agree through the first four stages of a time step", "statement": "In the deterministic mode and with exact arithmetic, if the Python world and the C++ world hold the same traffic before a time step and the vehicles in the origin queues choose by the same weights, then after the link updates, the departures and node updates, the transfers at all nodes and car following of all vehicles they hold the same traffic again. This includes that car following gives the same result although the Python engine goes through the running vehicles in order of creation and the C++ engine through the queues of the links.", "quantifier": "all pairs of worlds of any size that hold the same traffic and satisfy the stated hypotheses, whenever the Python engine raises no error", "why_tests_cant": "The comparison tests look at totals at the end of a few scenarios; that the order in which vehicles, links and nodes are visited makes no difference concerns every reachable world.", "anchors": ["uxsim/uxsim.py:World.exec_simulation", "uxsim/uxsim.py:Node.transfer", "uxsim/uxsim.py:Node.generate", "uxsim/uxsim.py:Vehicle.carfollow", "uxsim/trafficpp/traffi.cpp:World::main_loop", "uxsim/trafficpp/traffi.cpp:Node::transfer", "uxsim/trafficpp/traffi.cpp:Node::generate", "uxsim/trafficpp/traffi.cpp:Vehicle::car_follow_newell"]}
{"id": "C128", "title": "The update of one vehicle has the same effect in both engines", "statement": "In the deterministic mode, from worlds that hold the same traffic, the update of a vehicle leads to worlds that hold the same traffic in the Python engine and in the C++ engine: movement on the link, the end of the trip at the destination, giving up at a dead end, the request for the next link (the same vehicle asks for the same link), joining the origin queue when the departure time has come, and nothing for waiting and finished vehicles. The needed restrictions are stated: positions do not come nearer than 1e-9 to the end of a link without reaching it, departure times are whole time steps, no gradual update of preferences, no taxis.", "quantifier": "all pairs of worlds of any size that hold the same traffic, all vehicles, all rounding functions that are exact at zero (exact arithmetic for departures)", "why_tests_cant": "Tests compare totals of whole runs within a tolerance; a vehicle that ends its trip a step later or asks for another link in a rare situation stays below it.", "anchors": ["uxsim/uxsim.py:Vehicle.update", "uxsim/uxsim.py:Vehicle.end_trip", "uxsim/uxsim.py:Vehicle.route_next_link_choice", "uxsim/trafficpp/traffi.cpp:Vehicle::update", "uxsim/trafficpp/traffi.cpp:Vehicle::end_trip", "uxsim/trafficpp/traffi.cpp:Vehicle::route_next_link_choice"]}
{"id": "C129", "title": "Building the same scenario in both engines gives the same traffic", "statement": "A world, its nodes, links and vehicles (single ones and those of adddemand) made by the same calls in the Python engine and, through the wrapper, in the C++ engine hold the same traffic: the same numbers of objects, for every link the same length, lanes, speed, jam spacing, priority, signal group and capacities, for every node the same incoming and outgoing links, signal plan, initial phase and clock, capacity and lanes, for every vehicle the same initial state, origin, destination and departure step. Worlds built this way are worlds to which the agreement of the rules (C126 to C128) applies. The needed restrictions are stated: positive jam densities, no negative link capacities, positive node capacities in exact arithmetic, departure times on the grid of time steps, vehicles that may give up their trip.", "quantifier": "all sequences of calls of any length, all arguments that meet the restrictions, all rounding functions (exact arithmetic for node capacities and departure times in seconds)", "why_tests_cant": "Tests compare results of runs of a few scenarios; a derived parameter that differs in one engine for rare arguments is not seen.", "anchors": ["uxsim/uxsim.py:Node.__init__", "uxsim/uxsim.py:Link.__init__", "uxsim/uxsim.py:Vehicle.__init__", "uxsim/uxsim_cpp_wrapper.py:CppNode.__init__", "uxsim/uxsim_cpp_wrapper.py:CppLink.__init__", "uxsim/trafficpp/traffi.cpp:Node::Node", "uxsim/trafficpp/traffi.cpp:Link::Link", "uxsim/trafficpp/traffi.cpp:Vehicle::Vehicle", "uxsim/uxsim.py:World.adddemand", "uxsim/trafficpp/traffi.cpp:add_demand"]}
{"id": "C130", "title": "Finalizing the same scenario in both modes gives the same start of the simulation", "statement": "If the two engines hold the same scenario, finalize_scenario of the Python engine and of the C++ mode leave the same scenario: the same traffic, the same simulation length in seconds (given by the constructor, by the call, or chosen from the last departure) and in time steps, the same recorded travel times of all links, and, with automatic node capacities, the same capacity and number of lanes of every node. The first four stages of the first time step (signals and capacities, departures, transfers, car following) then agree as well. The needed restrictions are stated: with automatic node capacities arithmetic is exact, link capacities are positive, and no node was given a number of lanes without a capacity. The last restriction is needed: the Python engine forgets such lanes, the C++ engine keeps them.", "quantifier": "all pairs of worlds that hold the same scenario, all simulation lengths, all numbers of nodes, links and vehicles; all rounding functions if neither node capacities nor the length are automatic", "why_tests_cant": "Tests compare a few finished scenarios; a node parameter used by one engine only in the rare combination of arguments is not seen.", "anchors": ["uxsim/uxsim.py:World.finalize_scenario", "uxsim/uxsim.py:Node.adjust_node_capacity", "uxsim/uxsim_cpp_wrapper.py:CppWorld.finalize_scenario", "uxsim/uxsim_cpp_wrapper.py:CppWorld._compute_auto_tmax", "uxsim/trafficpp/traffi.cpp:Node::adjust_node_capacity", "uxsim/trafficpp/traffi.cpp:World::set_t_max"]}

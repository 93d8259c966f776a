{"id": "C01", "title": "Graph IDs are unique and failed calls change nothing", "statement": "After any sequence of Graph.add_node and Graph.add_link calls, node IDs are pairwise distinct and link IDs are pairwise distinct; adding an ID that exists, a self-loop, or a link with an unknown endpoint raises and leaves every later query unchanged; size_nodes and size_links equal the number of calls that succeeded; get_node/get_link succeed for exactly the added IDs.", "quantifier": "every finite sequence of add_node/add_link calls with arbitrary integer IDs, successful or failing", "why_tests_cant": "a test checks a handful of call sequences; the claim is about all of them, including every interleaving of rejected calls", "anchors": ["src/graph.h: Graph::add_node, Graph::add_link, Graph::get_node, Graph::get_link, size_nodes, size_links", "macposts/_ext/macposts.cpp: Graph bindings"]}
{"id": "C02", "title": "Directed connections are complete, duplicate free, newest first and terminate", "statement": "Graph.connections(node, direction) on a directed graph returns exactly the links whose endpoint on that side is the node, each exactly once, in reverse order of insertion, and the iteration always ends without touching an invalid pointer.", "quantifier": "every graph reachable by any sequence of additions, every node, both directions", "why_tests_cant": "the result comes from chasing intrusive next pointers threaded through all links; only an invariant over all build histories excludes a cycle, a lost link or a cross-linked list", "anchors": ["src/graph.h: Graph::add_link, Connections::Iterator::step, Connections::begin, Graph::connections"]}
{"id": "C03", "title": "Undirected connections list every incident link once", "statement": "On an undirected graph Graph.connections(node) returns every link incident to the node, whichever way it was added, each exactly once, including when one of the two internal lists is empty.", "quantifier": "every undirected graph reachable by any sequence of additions, every node", "why_tests_cant": "the iterator switches lists in the middle of a walk; which list is empty depends on the build history", "anchors": ["src/graph.h: Connections (undirected constructor), Connections::Iterator::step, operator=="]}
{"id": "C04", "title": "Neighbors are complete and never repeated", "statement": "Graph.neighbors(node, direction) returns exactly the set of nodes joined to the node in that direction (in either direction for undirected graphs), each once, however many parallel links there are.", "quantifier": "every reachable graph, every node, every direction, any number of parallel links, directed and undirected", "why_tests_cant": "de-duplication happens while the iterator walks; a test fixes one multiplicity pattern", "anchors": ["src/graph.h: Neighbors::Iterator::step, Neighbors::begin, Graph::neighbors"]}
{"id": "C05", "title": "Endpoints never change", "statement": "Once add_link(from, to, id) has succeeded, get_endpoints(id) returns (from, to) after any further sequence of graph operations, successful or not.", "quantifier": "every link, every later sequence of operations", "why_tests_cant": "quantifies over every continuation of every history", "anchors": ["src/graph.h: Graph::get_endpoints, Graph::add_link"]}
{"id": "C06", "title": "reverse_graph swaps every link and nothing else", "statement": "reverse_graph returns a graph with the same node IDs and the same link IDs, each link having its endpoints swapped, and reversing twice gives back a graph with the original endpoints; the construction never fails on a graph built through the API.", "quantifier": "every reachable graph", "why_tests_cant": "must hold for every graph; the failure mode (a rejected insertion half-way) depends on the whole graph", "anchors": ["src/ults.cpp: MNM_Ults::reverse_graph"]}
{"id": "C07", "title": "Stochastic rounding is exact on integers and off by less than one", "statement": "Rounding a non-negative number of vehicles to an integer returns its floor or its floor plus one, returns integers unchanged whatever the random draw, and rounds up exactly when the draw is below the fractional part (so the rounding is unbiased under a uniform draw).", "quantifier": "every non-negative value and every value of the random draw in [0,1]", "why_tests_cant": "the random draw is uncontrollable in a test and the inputs are a continuum", "anchors": ["src/ults.cpp: MNM_Ults::round"]}
{"id": "C08", "title": "Conversion of travel times to whole intervals is at least one and tight", "statement": "round_up_time and round_down_time always return at least one interval; for times of at least one, round_down_time is the floor, round_up_time is the floor or the floor plus one and never undershoots the time by more than the stated tolerance; both are monotone.", "quantifier": "every time value and every precision in [0,1)", "why_tests_cant": "continuum of inputs and tolerance boundary cases", "anchors": ["src/ults.cpp: MNM_Ults::round_up_time, MNM_Ults::round_down_time, MNM_Ults::approximate_equal"]}
{"id": "C09", "title": "Cumulative curves stay sorted and non-decreasing and total the recorded flow", "statement": "A link's cumulative curve after any sequence of recorded non-negative flows with non-decreasing times is sorted by time, has non-decreasing values starting at (0,0), and its last value is the sum of all recorded flows; a flow recorded clearly before the last time is rejected and changes nothing.", "quantifier": "every sequence of (time, flow) records", "why_tests_cant": "history property over unbounded sequences", "anchors": ["src/dlink.cpp: MNM_Cumulative_Curve::add_increment, add_record, MNM_Dlink::install_cumulative_curve"]}
{"id": "C10", "title": "Reading a cumulative curve gives the flow recorded so far", "statement": "Querying a cumulative curve at a time returns the sum of the flows recorded up to that time (step function), is non-decreasing in the time and lies between 0 and the total.", "quantifier": "every curve produced by recorded flows at whole loading intervals, every query time", "why_tests_cant": "the lookup uses an approximate comparison; correctness at all query points needs a proof about the search", "anchors": ["src/dlink.cpp: MNM_Cumulative_Curve::get_result"]}
{"id": "C11", "title": "Inverse lookup of a cumulative curve", "statement": "Asking a cumulative curve when it reached a count returns -1 exactly when the count was never reached, and otherwise the time of the first record whose count reaches it; no lookup reads outside the record.", "quantifier": "every curve and every requested count, with both rounding options", "why_tests_cant": "the out-of-range behaviour only shows for counts beyond the end", "anchors": ["src/dlink.cpp: MNM_Cumulative_Curve::get_time"]}
{"id": "C12", "title": "Link inflow is additive and non-negative", "statement": "get_link_inflow(a,b) + get_link_inflow(b,c) = get_link_inflow(a,c) for a <= b <= c, each is non-negative, and the inflow from the start to the end is the total number of vehicles that entered; the same for outflow.", "quantifier": "every link history and every three query times", "why_tests_cant": "universally quantified over histories and times", "anchors": ["src/dta_gradient_utls.cpp: get_link_inflow, get_link_outflow", "macposts/_ext/dta.cpp: Dta::get_link_inflow"]}
{"id": "C13", "title": "Experienced link travel time is never below free flow", "statement": "The link travel time derived from cumulative curves is at least the free-flow travel time of the loading model for every start time, or is the infinite marker when requested; get_link_tt inherits this.", "quantifier": "every pair of cumulative curves, start time and end of simulation", "why_tests_cant": "depends on arbitrary curves", "anchors": ["src/dta_gradient_utls.cpp: get_travel_time_from_cc, get_travel_time, get_travel_time_robust"]}
{"id": "C14", "title": "Storing only recent curve history keeps the recent history", "statement": "When a curve is limited to a number of recent records (link transmission model), the records kept are the most recent ones, so later queries about recent times are unaffected.", "quantifier": "every curve longer than the limit", "why_tests_cant": "only shows after long histories", "anchors": ["src/dlink.cpp: MNM_Cumulative_Curve::shrink, MNM_Dlink_Ltm"]}
{"id": "C15", "title": "Point-queue links conserve vehicles", "statement": "On a point-queue link no vehicle is ever lost or duplicated: what was put in equals what is waiting at the entrance, travelling or waiting at the exit, after any number of intervals with any admissions and departures.", "quantifier": "every sequence of admissions, intervals and departures", "why_tests_cant": "history property", "anchors": ["src/dlink.cpp: MNM_Dlink_Pq::clear_incoming_array, MNM_Dlink_Pq::evolve"]}
{"id": "C16", "title": "Point-queue links are FIFO with an exact free-flow delay", "statement": "On a point-queue link vehicles become ready to leave in the order they were admitted, and each one becomes ready after exactly the free-flow number of intervals.", "quantifier": "every admission history", "why_tests_cant": "history property with unbounded horizon", "anchors": ["src/dlink.cpp: MNM_Dlink_Pq::evolve, MNM_Dlink_Pq::MNM_Dlink_Pq"]}
{"id": "C17", "title": "Cell-transmission links conserve vehicles and keep FIFO order", "statement": "On a cell-transmission link no vehicle is lost or duplicated, and vehicles leave in the order they entered, for any number of cells, any densities and any random rounding.", "quantifier": "every number of cells, every state, every random draw, every number of intervals", "why_tests_cant": "unbounded cells and histories, random rounding", "anchors": ["src/dlink.cpp: MNM_Dlink_Ctm::evolve, update_out_veh, move_last_cell, clear_incoming_array, MNM_Dlink::move_veh_queue"]}
{"id": "C18", "title": "Cell-transmission flow respects demand, supply and presence", "statement": "In one interval the number of vehicles moved from a cell to the next never exceeds the vehicles present nor the rounded minimum of what the cell can send and what the next can receive; the sending and receiving capacities are non-negative and at most the flow capacity; density never exceeds jam density by more than one vehicle.", "quantifier": "every state, random draw and number of cells", "why_tests_cant": "continuum of densities", "anchors": ["src/dlink.cpp: Ctm_Cell::get_perceived_demand, get_perceived_supply, MNM_Dlink_Ctm::update_out_veh"]}
{"id": "C19", "title": "Link-queue links conserve vehicles", "statement": "On a link-queue link no vehicle is lost or duplicated, including when vehicles are pulled back from the exit queue because demand dropped.", "quantifier": "every state and history", "why_tests_cant": "the pull-back branch depends on density histories", "anchors": ["src/dlink.cpp: MNM_Dlink_Lq::clear_incoming_array, MNM_Dlink_Lq::evolve"]}
{"id": "C20", "title": "Link-transmission links conserve vehicles", "statement": "On a link-transmission-model link no vehicle is lost or duplicated over any history.", "quantifier": "every state and history", "why_tests_cant": "history property", "anchors": ["src/dlink.cpp: MNM_Dlink_Ltm::clear_incoming_array, MNM_Dlink_Ltm::evolve"]}
{"id": "C21", "title": "Link travel time estimates are bounded", "statement": "The instantaneous travel time of a cell-transmission link is at least the free-flow time and at most the larger of one thousand times the free-flow time and one hour, is never zero or negative, and is non-decreasing in the number of vehicles on the link up to jam density.", "quantifier": "every non-negative flow and every valid parameter set", "why_tests_cant": "continuum of parameters; division by a quantity that vanishes at jam density", "anchors": ["src/dlink.cpp: MNM_Dlink_Ctm::get_link_tt, get_link_tt_from_flow"]}
{"id": "C22", "title": "Merge flows respect demand and supply and are work conserving", "statement": "At a merge/diverge (FWJ) node the flow from each approach to each exit is non-negative, at most the demand for that movement, the total into each exit is at most its supply, and equals the smaller of total demand and supply.", "quantifier": "every number of approaches and exits, every non-negative demand and supply", "why_tests_cant": "unbounded node size, continuum of flows", "anchors": ["src/dnode.cpp: MNM_Dnode_FWJ::compute_flow"]}
{"id": "C23", "title": "Vehicle counts moved at a node never exceed supply or presence", "statement": "After random rounding, the number of vehicles moved through a node into an exit never exceeds the exit's supply, never exceeds the vehicles waiting for that movement, and the rounding loop terminates whenever the supply is non-negative.", "quantifier": "every flow matrix, supply and random draw", "why_tests_cant": "randomised loop whose termination depends on the data", "anchors": ["src/dnode.cpp: MNM_Dnode_Inout::round_flow_to_vehicle"]}
{"id": "C24", "title": "Node transfer conserves vehicles and keeps per-movement FIFO", "statement": "Moving vehicles through a node loses and duplicates none, moves exactly the computed number for each approach-exit pair, and for each pair takes the vehicles that have waited longest, whatever order approaches are served in.", "quantifier": "every node state, movement matrix and service order", "why_tests_cant": "service order is random; FIFO is a relation over whole queues", "anchors": ["src/dnode.cpp: MNM_Dnode_Inout::move_vehicle, MNM_Dnode_Inout::evolve"]}
{"id": "C25", "title": "Node curves count exactly the vehicles moved", "statement": "With cumulative curves installed on the links of a node, each interval adds to the exit curve of every approach and the entry curve of every exit exactly the number of vehicles moved (per flow scalar).", "quantifier": "every node state and movement", "why_tests_cant": "the bookkeeping is separate code from the movement and must agree in every case", "anchors": ["src/dnode.cpp: MNM_Dnode_Inout::record_cumulative_curve"]}
{"id": "C26", "title": "Origin nodes release vehicles first-come first-served and lose none", "statement": "An origin node moves waiting vehicles to their first links in queue order per link, at most the rounded supply of the link, and vehicles not moved stay in the queue in their original order.", "quantifier": "every queue, supply and random draw", "why_tests_cant": "queue surgery while iterating; arbitrary interleaving of destinations in the queue", "anchors": ["src/dnode.cpp: MNM_DMOND::evolve"]}
{"id": "C27", "title": "Destination nodes absorb every arriving vehicle once", "statement": "A destination node moves every vehicle that has finished an incoming link to the destination, each exactly once, and the destination counts each exactly once as finished; a vehicle for another destination is rejected with an error.", "quantifier": "every arrival pattern", "why_tests_cant": "history property", "anchors": ["src/dnode.cpp: MNM_DMDND::evolve", "src/od.cpp: MNM_Destination::receive"]}
{"id": "C28", "title": "Released equals en route plus finished", "statement": "At every moment the number of released vehicles equals the number en route plus the number finished, vehicle IDs are never reused, and removing an unknown vehicle raises without changing the counts.", "quantifier": "every sequence of releases and removals", "why_tests_cant": "history property", "anchors": ["src/factory.cpp: MNM_Veh_Factory::make_veh, remove_finished_veh", "macposts/_ext/dta.cpp: Dta::get_travel_stats"]}
{"id": "C29", "title": "Network-wide vehicle conservation", "statement": "After any number of loading intervals, with any demand, any random draws, any service orders and any mix of link models, every vehicle ever released is in exactly one place: an origin queue, one link, or a destination, or has finished; none is lost or duplicated.", "quantifier": "every network, every number of intervals, every random outcome", "why_tests_cant": "the central simulation invariant; unbounded network and horizon", "anchors": ["src/dta.cpp: MNM_Dta::load_once, MNM_Dta::loading"]}
{"id": "C30", "title": "Entry curve minus exit curve equals vehicles on the link", "statement": "On every instrumented link, at the end of every loading interval the entry curve's total minus the exit curve's total, times the flow scalar, equals the number of vehicles on the link; in particular the exit curve never overtakes the entry curve.", "quantifier": "every network history", "why_tests_cant": "couples three pieces of code over an unbounded history", "anchors": ["src/dta.cpp: MNM_Dta::load_once", "src/dnode.cpp: record_cumulative_curve, MNM_DMOND::evolve, MNM_DMDND::evolve"]}
{"id": "C31", "title": "Reported total travel time is the sum over finished vehicles", "statement": "The total travel time statistic equals the sum over all finished vehicles of finish time minus start time, each term positive; with unfinished vehicles counted to the current interval the reported vehicle-hours equal the sum over all released vehicles.", "quantifier": "every history of releases and finishes", "why_tests_cant": "history property", "anchors": ["src/factory.cpp: MNM_Veh_Factory::remove_finished_veh", "macposts/_ext/dta.cpp: Dta::get_travel_stats"]}
{"id": "C32", "title": "Path choice probabilities are normalised", "statement": "After normalisation the choice portions of every path set are non-negative and sum to one, in the original proportions, or uniform when all were zero; a negative portion raises.", "quantifier": "every path set with arbitrary portions", "why_tests_cant": "arbitrary set size and values", "anchors": ["src/path.cpp: MNM_Pathset::normalize_p, MNM::normalize_path_table_p"]}
{"id": "C33", "title": "Every vehicle gets a path from a normalised path set", "statement": "Assigning a path to a released vehicle with any random draw in [0,1] always succeeds when the portions are normalised, and returns the path whose cumulative-probability bracket contains the draw (up to the comparison tolerance).", "quantifier": "every normalised path set and every draw", "why_tests_cant": "the failure needs a draw in a tiny interval at the end", "anchors": ["src/routing.cpp: MNM_Routing_Fixed::register_veh"]}
{"id": "C34", "title": "Fixed-route vehicles follow exactly their path", "statement": "A vehicle with a fixed path traverses precisely the links of the path in order from the origin to the destination; the router never sends it elsewhere, and it has no next link exactly when it is at the destination.", "quantifier": "every path and every schedule of movements", "why_tests_cant": "interleaving of routing updates with node movements over an unbounded horizon", "anchors": ["src/routing.cpp: MNM_Routing_Fixed::update_routing, register_veh"]}
{"id": "C35", "title": "Cycle elimination yields a simple path with the same ends", "statement": "Eliminating cycles from a path yields a path with no repeated node, the same first and last node, all links consecutive, every link taken from the original path, and leaves simple paths unchanged.", "quantifier": "every node/link sequence that is a walk", "why_tests_cant": "arbitrary nesting of loops", "anchors": ["src/path.cpp: MNM_Path::eliminate_cycles"]}
{"id": "C36", "title": "Extracted paths are real paths with the reported cost", "statement": "Extracting a path from a shortest-path tree returns a connected sequence of links from the origin to the destination whose total cost equals the reported distance, and reports failure exactly when the origin cannot reach the destination.", "quantifier": "every graph, costs and tree produced by the shortest path routine", "why_tests_cant": "pointer chase through an arbitrary tree; termination depends on acyclicity", "anchors": ["src/path.cpp: MNM::extract_path"]}
{"id": "C37", "title": "Label-correcting shortest paths are optimal and terminate", "statement": "The queue-based shortest path to a destination terminates for non-negative costs and gives every node the minimum total cost over all paths to the destination, infinite exactly when there is none, and a next link attaining it.", "quantifier": "every graph and non-negative cost assignment", "why_tests_cant": "optimality is a statement about all paths", "anchors": ["src/shortest_path.cpp: MNM_Shortest_Path::all_to_one_FIFO"]}
{"id": "C38", "title": "Dijkstra shortest paths are optimal", "statement": "The priority-queue shortest path gives every node its minimum total cost to the destination and a next link attaining it, for every tie-breaking order of the queue.", "quantifier": "every graph, non-negative costs, tie-breaking", "why_tests_cant": "optimality over all paths; queue order for ties is unspecified", "anchors": ["src/shortest_path.cpp: MNM_Shortest_Path::all_to_one_Dijkstra"]}
{"id": "C39", "title": "All shortest-path algorithms agree", "statement": "all_to_one_FIFO, all_to_one_LIFO and all_to_one_Dijkstra give the same distances, and the next links they give attain them.", "quantifier": "every graph and non-negative costs", "why_tests_cant": "agreement on all graphs", "anchors": ["src/shortest_path.cpp: all_to_one_FIFO, all_to_one_LIFO, all_to_one_Dijkstra"]}
{"id": "C40", "title": "Time-dependent shortest paths are optimal", "statement": "The time-dependent shortest path tree stores for every node and departure interval the minimum cost over all paths to the destination under the time-varying link costs and (rounded) travel times, with travel beyond the horizon charged at the last interval.", "quantifier": "every graph, cost and travel-time tables, departure time", "why_tests_cant": "optimality over all paths and departure times", "anchors": ["src/shortest_path.cpp: MNM_TDSP_Tree::update_tree, get_distance_to_destination, round_time", "macposts/_ext/tdsp.cpp: Tdsp::build_tdsp_tree"]}
{"id": "C41", "title": "Extracted time-dependent paths follow the tree", "statement": "extract_tdsp returns a connected path from the origin to the destination following the tree's choices at the arrival times, and its travel time is the sum of the link travel times met on the way.", "quantifier": "every tree, origin and departure interval", "why_tests_cant": "loop over tree and time", "anchors": ["src/shortest_path.cpp: MNM_TDSP_Tree::get_tdsp", "macposts/_ext/tdsp.cpp: Tdsp::extract_tdsp"]}
{"id": "C42", "title": "Generated path sets contain no duplicates and only real paths", "statement": "Path-set generation never stores the same path twice for an origin-destination pair and every stored path is connected from the origin to the destination; a pair without any path raises, and the first stored path is a cheapest one at free flow.", "quantifier": "every network with non-negative costs whose origins sit at different nodes and whose destinations sit at different nodes, every demand pattern and number of iterations", "why_tests_cant": "iterated generation with changing costs", "anchors": ["src/path.cpp: MNM::build_pathset, MNM::build_shortest_pathset, MNM_Pathset::is_in"]}
{"id": "C43", "title": "User-equilibrium MSA update conserves demand and non-negativity", "statement": "With fixed departure times, one MSA iteration keeps for each origin-destination pair and interval the total path flow unchanged and all path flows non-negative, whether or not the best path is new.", "quantifier": "every path set, flows, step size in [0,1] and iteration", "why_tests_cant": "holds over unbounded iterations and any path set", "anchors": ["src/due.cpp: MNM_Due_Msa::update_path_table_fixed_departure_time_choice"]}
{"id": "C44", "title": "User-equilibrium update with departure time choice conserves demand", "statement": "With departure-time choice, one iteration keeps for each origin-destination pair the total flow over all paths and intervals unchanged and all flows non-negative.", "quantifier": "every path set, flows and step size", "why_tests_cant": "unbounded path sets and iterations", "anchors": ["src/due.cpp: MNM_Due_Msa::update_path_table"]}
{"id": "C45", "title": "Gradient projection update conserves demand and non-negativity", "statement": "One gradient-projection iteration keeps for each origin-destination pair and interval the total path flow unchanged and path flows non-negative.", "quantifier": "every path set, flows, costs and step size in [0,1]", "why_tests_cant": "involves a minimum over used paths and clamping", "anchors": ["src/due.cpp: MNM_Due_Msa::update_path_table_gp_fixed_departure_time_choice"]}
{"id": "C46", "title": "The equilibrium gap is a true gap", "statement": "The merit function is non-negative, and zero exactly when every path-interval with positive flow attains the lowest disutility of its origin-destination pair.", "quantifier": "every non-negative flow pattern and disutilities", "why_tests_cant": "all flow patterns", "anchors": ["src/due.cpp: MNM_Due::compute_merit_function, compute_merit_function_fixed_departure_time_choice"]}
{"id": "C47", "title": "Recorded averages are averages", "statement": "The volume and travel time written for each record interval is the arithmetic mean of the values of the loading intervals since the last record.", "quantifier": "every sequence of link states and every record length", "why_tests_cant": "rolling accumulation with reset over unbounded histories", "anchors": ["src/statistics.cpp: MNM_Statistics_Lrn::update_record"]}
{"id": "C48", "title": "Dynamic assignment ratio entries are well placed and add up", "statement": "Each dynamic-assignment-ratio record refers to an in-range (link, interval) row and (path, departure interval) column, distinct pairs get distinct matrix cells, and over disjoint periods the portions recorded for one path, departure and link sum to at most one, as long as no more flow of this path and departure entered the link than the path flow passed in.", "quantifier": "all sets of registered links and (distinct) paths, periods, numbers of departure intervals, path flows and histories of movements", "why_tests_cant": "index arithmetic over all sizes", "anchors": ["src/dta_gradient_utls.cpp: add_dar_records, add_dar_records_eigen", "macposts/_ext/dta.cpp: Dta::get_dar_matrix"]}
{"id": "C49", "title": "Configuration lookups return what was written", "statement": "Looking a key up in a section of a configuration file returns the value of the last assignment to it in that section, ignoring comments and blanks; a missing key raises, and a lookup with a default returns the default.", "quantifier": "every file content", "why_tests_cant": "all byte sequences", "anchors": ["src/ults.cpp: ConfigFile, MNM_ConfReader"]}
{"id": "C50", "title": "Input readers terminate", "statement": "Reading a node, link or demand file terminates for every file content and every configured row count, with an error when the file has too few rows.", "quantifier": "every file content and row count", "why_tests_cant": "non-termination cannot be observed by a test", "anchors": ["src/io.cpp: MNM_IO::build_node_factory, build_link_factory"]}
{"id": "C51", "title": "Tabulated cumulative curves equal the curves", "statement": "The table returned by get_in_ccs/get_out_ccs at tick t holds the curve's value at time t for every tick up to the current interval (forward filled).", "quantifier": "every curve and horizon", "why_tests_cant": "forward fill over arbitrary record positions", "anchors": ["macposts/dta.py: _CommonMixin._get_ccs", "macposts/_ext/dta.cpp: Dta::get_link_in_cc"]}
{"id": "C52", "title": "Biclass links conserve cars and trucks separately", "statement": "On multiclass links no car and no truck is ever lost, duplicated or changed into the other class.", "quantifier": "every state, random draw and history", "why_tests_cant": "history property with two classes sharing capacity", "anchors": ["src/multiclass.cpp: MNM_Dlink_Ctm_Multiclass, MNM_Dlink_Pq_Multiclass, MNM_Dlink_Lq_Multiclass"]}
{"id": "C53", "title": "Demand release matches the demand table", "statement": "In each assignment interval an origin releases for every destination the scaled demand rounded to an integer (floor or floor plus one), all with the right origin, destination and start time, and the release order is a permutation of the generated vehicles.", "quantifier": "every demand table, random draw and shuffle", "why_tests_cant": "random rounding and shuffling", "anchors": ["src/od.cpp: MNM_Origin::release_one_interval"]}
{"id": "C54", "title": "Cycle detection on the link graph", "statement": "The gridlock checker's cycle test returns true exactly when the graph contains a directed cycle.", "quantifier": "every graph", "why_tests_cant": "all graphs", "anchors": ["src/gridlock_checker.cpp: MNM_Gridlock_Checker::has_cycle"]}
{"id": "C55", "title": "Emission totals accumulate and are non-negative", "statement": "Every accumulated emission quantity is non-negative and non-decreasing between outputs, and electric-vehicle distance never exceeds total distance.", "quantifier": "every history of link states", "why_tests_cant": "rational functions over a range of speeds, unbounded accumulation", "anchors": ["src/emission.cpp: MNM_Cumulative_Emission::update"]}
{"id": "C56", "title": "Path tables survive saving and loading", "statement": "Writing a path table and reading it back yields the same paths with the same node and link sequences for the same origin-destination pairs.", "quantifier": "every path table over a graph without parallel links on the path nodes", "why_tests_cant": "all path tables", "anchors": ["src/path.cpp: MNM::save_path_table", "src/io.cpp: MNM_IO::load_path_table"]}
{"id": "C57", "title": "Reported link flow is the number of vehicles on the link", "statement": "After every interval the flow a link reports, times the flow scalar, equals the number of vehicles travelling on it or waiting at its exit.", "quantifier": "every link type, every parameter set, every history", "why_tests_cant": "depends on the bookkeeping of the stored volume over the whole history", "anchors": ["src/dlink.cpp: MNM_Dlink_Pq::get_link_flow, MNM_Dlink_Ctm::get_link_flow, MNM_Dlink_Lq::get_link_flow, MNM_Dlink_Ltm::get_link_flow"]}
{"id": "C58", "title": "A junction never asks an entrance for more vehicles than wait there", "statement": "At a merge/diverge node the number of vehicles to move from an entrance to an exit never exceeds the number of vehicles waiting at that entrance for that exit, so the node step never fails for lack of vehicles.", "quantifier": "every node model, topology, link state and random draw", "why_tests_cant": "depends on real-valued demands and random rounding", "anchors": ["src/dnode.cpp: MNM_Dnode_FWJ::compute_flow, MNM_Dnode_GRJ::compute_flow, MNM_Dnode_Inout::round_flow_to_vehicle, move_vehicle"]}
{"id": "C59", "title": "Free-flow junctions serve all demand", "statement": "If an exit can take everything that waits for it, a merge/diverge node sends all of it in this interval.", "quantifier": "every node model, topology and link state", "why_tests_cant": "all combinations of demand and supply", "anchors": ["src/dnode.cpp: MNM_Dnode_FWJ::compute_flow, MNM_Dnode_GRJ::compute_flow"]}
{"id": "C60", "title": "A link never rejects the vehicles its upstream node sends", "statement": "After any node step, the link downstream admits all the vehicles the node put in front of it: clear_incoming_array raises no exception and leaves the entrance empty.", "quantifier": "every node type, link type, state and random draw", "why_tests_cant": "node and link round independently; needs all draws", "anchors": ["src/dnode.cpp: MNM_Dnode_Inout::evolve, MNM_DMOND::evolve", "src/dlink.cpp: clear_incoming_array"]}
{"id": "C61", "title": "The adaptive share applies to each destination separately", "statement": "A released vehicle is adaptive according to the ratio set for its destination, or to the ratio of the run if none is set for it: never for 0, always for 1, otherwise when the draw is at most the ratio.", "quantifier": "every demand table, ratio table and draw", "why_tests_cant": "depends on the iteration order of a hash map and on random draws", "anchors": ["src/od.cpp: MNM_Origin::release_one_interval"]}
{"id": "C62", "title": "Vehicles enter the network in the order of their release", "statement": "Of two vehicles released at the same origin for the same destination and path, the one released in the earlier interval enters the first link no later than the other.", "quantifier": "every history and shuffle", "why_tests_cant": "needs all shuffles of all release intervals", "anchors": ["src/od.cpp: MNM_Origin::release_one_interval", "src/dnode.cpp: MNM_DMOND::evolve"]}
{"id": "C63", "title": "Shortest paths with turn costs are optimal", "statement": "The shortest-path routine with turn (node) costs gives every node the least total of link and turn costs over all paths to the destination.", "quantifier": "every graph, link and turn costs", "why_tests_cant": "all graphs and cost tables", "anchors": ["src/shortest_path.cpp: MNM_Shortest_Path::all_to_one_FIFO (with node_cost_map)"]}
{"id": "C64", "title": "A node file gives exactly its nodes", "statement": "Reading a node file of rows 'number type' yields exactly the nodes listed, each with the type of its first row.", "quantifier": "every list of rows with int node numbers and one of the four node types", "why_tests_cant": "all files", "anchors": ["src/io.cpp: MNM_IO::build_node_factory", "src/factory.cpp: MNM_Node_Factory::make_node"]}
{"id": "C65", "title": "A graph file gives exactly its links", "statement": "Reading a graph file of rows 'link from to' with distinct link numbers and no loops yields the graph with exactly these links, ends and nodes; a repeated link number or a loop raises an error.", "quantifier": "every list of rows of int numbers", "why_tests_cant": "all files", "anchors": ["src/io.cpp: MNM_IO::build_graph"]}
{"id": "C66", "title": "A link file gives exactly its links in metric units", "statement": "Reading a link file yields exactly the links listed, each of the type and with the length, speed, capacity, jam density and lane count of its first row, converted to metres and seconds (1600 metres to the mile).", "quantifier": "every list of rows with decimal numbers from which links can be made", "why_tests_cant": "all files", "anchors": ["src/io.cpp: MNM_IO::build_link_factory", "src/factory.cpp: MNM_Link_Factory::make_link"]}
{"id": "C67", "title": "A demand file gives every pair its demand", "statement": "Reading a demand file gives every origin-destination pair the first max_interval values of its first row, and no demand to other pairs.", "quantifier": "every list of rows over existing origins and destinations with enough values", "why_tests_cant": "all files", "anchors": ["src/io.cpp: MNM_IO::build_demand", "src/od.cpp: MNM_Origin::add_dest_demand"]}
{"id": "C68", "title": "The best departure time is best", "statement": "With departure time choice, the departure interval and route an equilibrium iteration moves flow to have the lowest disutility (travel cost plus schedule delay) among all departures.", "quantifier": "every time-dependent travel time and toll, value of time and schedule preferences", "why_tests_cant": "all cost tables", "anchors": ["src/due.cpp: MNM_Due_Msa::get_best_route, MNM_Due::get_disutility"]}
{"id": "C69", "title": "Biclass link volumes count every vehicle once", "statement": "After an interval the car, truck and total volumes a multiclass link reports are the numbers of cars, trucks and vehicles on the link, each counted exactly once.", "quantifier": "every history of a link of any kind, every random draw", "why_tests_cant": "history property", "anchors": ["src/multiclass.cpp: get_link_flow_car, get_link_flow_truck, get_link_flow of the three link types"]}
{"id": "C70", "title": "Biclass waiting times add up", "statement": "The total waiting time at the exit a multiclass link reports is exactly the vehicle-seconds spent in its exit queue, and the sum of the waiting times of cars and of trucks.", "quantifier": "every history of a link of any kind", "why_tests_cant": "accumulates over an unbounded history", "anchors": ["src/multiclass.cpp: m_tot_wait_time_at_intersection, _car, _truck in evolve of the three link types"]}
{"id": "C71", "title": "Cars and trucks share the road exactly", "statement": "The shares of the road taken by cars and trucks on a multiclass link are never negative and sum to one, each class perceives exactly its own vehicles on its share, and the room a link offers is never negative.", "quantifier": "every traffic state reachable by any history", "why_tests_cant": "continuous state space with five regimes", "anchors": ["src/multiclass.cpp: Ctm_Cell_Multiclass::update_perceived_density, MNM_Dlink_Lq_Multiclass::update_perceived_density, get_link_supply"]}
{"id": "C72", "title": "An interval on a biclass link always completes", "statement": "Below jam density, admitting vehicles to and advancing a multiclass link never raises an error or hits undefined behaviour, whatever the mix of classes and the random draws.", "quantifier": "every history, state below jam density and random draw", "why_tests_cant": "depends on every combination of cell states and draws", "anchors": ["src/multiclass.cpp: evolve, clear_incoming_array of the three link types"]}
{"id": "C73", "title": "Vehicle labels follow the configured ratios", "statement": "With label ratios that are not negative and add up to one, every vehicle an origin releases gets the label whose interval of the cumulated ratios contains the vehicle's draw (up to the comparison tolerance), so a label of ratio zero is practically never used; without ratios vehicles have no label.", "quantifier": "every origin, every list of label ratios, every release and every random draw", "why_tests_cant": "the label depends on a random draw per vehicle; a test sees a few draws", "anchors": ["src/od.cpp: MNM_Origin::generate_label, MNM_Origin::release_one_interval"]}
{"id": "C74", "title": "Adaptive vehicles head for their own destination", "statement": "Whenever routes have been updated, every adaptive vehicle waiting in an origin queue or at the end of a link has as next link the one the shortest path tree of its own destination gives for the node it is at (a link that begins a cheapest way to the destination), and none exactly when it has reached its destination; where the destination is out of reach it takes a link from which it is not.", "quantifier": "every network, history of intervals, adaptive or hybrid routing with any shortest path trees, and every vehicle", "why_tests_cant": "it must hold for each vehicle in every interval of every run, in any traffic state", "anchors": ["src/routing.cpp: MNM_Routing_Adaptive::update_routing, MNM_Routing_Hybrid::update_routing", "src/shortest_path.cpp: MNM_Shortest_Path::all_to_one_FIFO"]}
{"id": "C75", "title": "Loading ends when it should", "statement": "With a configured number of intervals, loading runs exactly that many intervals, or as many as are needed to get through all assignment intervals if those are more.  Without one, loading ends at the first interval after all assignment intervals at which every released vehicle has finished, and then no vehicle is left in the network.", "quantifier": "every network, demand, configuration of the number of intervals, start interval and all random choices", "why_tests_cant": "the end depends on the whole history of the run", "anchors": ["src/dta.cpp: MNM_Dta::loading, MNM_Dta::finished_loading, MNM::has_running_vehicle"]}
{"id": "C76", "title": "The first-in-first-out check is exact", "statement": "is_FIFO answers true exactly when, for every link and every two intervals of the horizon, entering the link in the earlier one does not mean leaving it later.", "quantifier": "every graph, travel time table, horizon and interval length", "why_tests_cant": "it compares all pairs of intervals of all links; the code only looks at neighbouring ones", "anchors": ["src/shortest_path.cpp: MNM_Shortest_Path::is_FIFO"]}
{"id": "C77", "title": "A two-class network loses and invents no vehicle", "statement": "After any number of intervals of loading with cars and trucks, with link attributes changed in between or not, every released vehicle is in exactly one place in the network and unfinished, or finished and nowhere; and for each class the counters of released, running and finished vehicles and the total travel time agree with the vehicles of that class, and add up to the totals.", "quantifier": "every network, demand by class, routing, mix of link models, attribute change, number of intervals and random outcome", "why_tests_cant": "it ranges over all histories of a stochastic simulation", "anchors": ["src/multiclass.cpp: MNM_Veh_Factory_Multiclass, MNM_Dta_Multiclass", "src/dta.cpp: MNM_Dta::load_once, MNM_Dta::loading"]}
{"id": "C78", "title": "Curves count the vehicles of each class", "statement": "On every link with curves, the number of cars that entered minus the number that left according to the car curves, times the flow scalar, is the number of cars on the link, and likewise for trucks.", "quantifier": "every network, history, link and class", "why_tests_cant": "an invariant over all histories", "anchors": ["src/multiclass.cpp: MNM_Dlink_Multiclass::install_cumulative_curve_multiclass, record_cumulative_curve"]}
{"id": "C79", "title": "A two-class junction shares room by car equivalents", "statement": "In one interval of a junction, the vehicles at an entrance bound for an exit pass in their order, and exactly as many as are needed for their car equivalents to reach the entrance's share of what the exit can take; nobody overtakes or disappears, the curves of each class record who passed, and the step never fails in a proper state.", "quantifier": "every junction, every mix of cars and trucks, every order of service", "why_tests_cant": "it ranges over all queues and supplies", "anchors": ["src/multiclass.cpp: MNM_Dnode_Inout_Multiclass::prepare_supplyANDdemand, move_vehicle, record_cumulative_curve, MNM_Dnode_FWJ_Multiclass::compute_flow"]}
{"id": "C80", "title": "A junction respects the room of its exits", "statement": "The car equivalents that enter a link at a junction in one interval are at most what the link can take.", "quantifier": "every junction, every mix of cars and trucks, every order of service", "why_tests_cant": "it ranges over all queues and supplies", "anchors": ["src/multiclass.cpp: MNM_Dnode_Inout_Multiclass::move_vehicle"]}
{"id": "C81", "title": "Two-class travel statistics are exact", "statement": "The travel statistics reported to the user are, for each class, the number of released vehicles and the hours they have spent until they finished or until now, in flow units.", "quantifier": "every network, history and unit time", "why_tests_cant": "an invariant over all histories", "anchors": ["macposts/_ext/mcdta.cpp: get_travel_stats"]}
{"id": "C82", "title": "Cars and trucks are released as demanded", "statement": "A release of an origin makes, for every destination, the scaled and randomly rounded demand of cars and of trucks, each vehicle with its class, origin, destination, start time, interval and a label from the ratios of its class; all of them join the origin's queue and nothing else changes.", "quantifier": "every origin, demand by class, interval and random draws", "why_tests_cant": "random rounding and shuffling", "anchors": ["src/multiclass.cpp: MNM_Origin_Multiclass::release_one_interval, release_one_interval_biclass, generate_label"]}
{"id": "C83", "title": "The adaptive ratio of a class decides who is adaptive", "statement": "A released car (truck) is adaptive exactly when the ratio for cars (trucks) of its origin and destination says so: never for zero, always for one, otherwise when its draw is at most the ratio.", "quantifier": "every origin, demand, ratios and random draws", "why_tests_cant": "a random draw per vehicle", "anchors": ["src/multiclass.cpp: MNM_Origin_Multiclass::release_one_interval, release_one_interval_biclass"]}
{"id": "C84", "title": "A two-class origin node feeds its links", "statement": "In one interval of an origin node every outgoing link gets all vehicles bound for it if it has room for as many vehicles, and otherwise the first of them, as many as there is room for, rounded; the order is kept, the curves of each class record who entered, and nothing else changes.", "quantifier": "every origin node, queue and random draws", "why_tests_cant": "it ranges over all queues and supplies", "anchors": ["src/multiclass.cpp: MNM_DMOND_Multiclass::evolve"]}
{"id": "C85", "title": "A two-class destination node empties its links", "statement": "In one interval of a destination node all vehicles at the ends of the incoming links move to the node, in order, the curves of each class record them, and nothing else changes.", "quantifier": "every destination node and state", "why_tests_cant": "it ranges over all queues", "anchors": ["src/multiclass.cpp: MNM_DMDND_Multiclass::evolve"]}
{"id": "C86", "title": "Adaptive cars and trucks are routed", "statement": "Under the hybrid routing for two classes every adaptive vehicle waiting at its origin is given a next link by the shortest path tree of its destination.", "quantifier": "every network, history, demand, ratios and vehicle", "why_tests_cant": "it must hold for every vehicle in every interval", "anchors": ["src/routing.cpp: MNM_Routing_Biclass_Hybrid"]}
{"id": "C87", "title": "A two-class link behaves as configured", "statement": "A cell transmission link or link queue for cars and trucks has, for each class, a triangular fundamental diagram with the configured speed, jam density and capacity of all lanes; a capacity below one vehicle per interval is raised to one. The cells add up to the length of the link and take one interval of free flow each (the last up to two). Changing the attributes changes the diagrams accordingly and keeps cells and vehicles.", "quantifier": "every configuration, history and change of attributes", "why_tests_cant": "it ranges over all configurations and all states in which a link is changed", "anchors": ["src/multiclass.cpp: MNM_Dlink_Ctm_Multiclass, modify_property, MNM_Dlink_Lq_Multiclass"]}
{"id": "C88", "title": "Cars and trucks follow their own paths", "statement": "Under two-class fixed or hybrid routing a vehicle without adaptive routing does exactly the trip along a path from the table of its own class: it waits at its origin until it is given one, what it has done is always the beginning of that trip, and when it leaves the network it has made all of it.", "quantifier": "every two-class network, demand, path tables, random choices and number of intervals", "why_tests_cant": "it must hold for every vehicle at every moment of every run", "anchors": ["src/routing.cpp: MNM_Routing_Biclass_Hybrid, MNM_Routing_Biclass_Fixed", "src/multiclass.cpp: MNM_DMOND_Multiclass, MNM_DMDND_Multiclass, MNM_Dnode_Inout_Multiclass"]}
{"id": "C89", "title": "Reported link travel time is the time really spent", "statement": "For a link watched through its cumulative curves, the travel time reported for entering in an interval is the time that the last vehicle that had entered by then really spends on the link (never less than the free-flow time); queries after the last interval whose entries have all left are answered for that interval.", "quantifier": "every history of entries and departures, flow scalar, free-flow time and query interval", "why_tests_cant": "it ranges over all pairs of histories and all queries", "anchors": ["src/dta_gradient_utls.cpp: get_travel_time, get_travel_time_from_cc, get_last_valid_time", "src/dlink.cpp: MNM_Cumulative_Curve::get_time"]}
{"id": "C90", "title": "Reported path travel times are those of the trip", "statement": "After a loading, the travel time reported for a sequence of links and a departure interval is the duration of the trip: each link takes the travel time reported for the interval in which it is entered (as whole intervals), the last interval standing for later ones; the reported cost is the sum of the link costs at those intervals. It is the same from tables and from curves, adds up over parts of the path, and is at least the sum of the free-flow times. Departures after the loading are refused.", "quantifier": "every loading, sequence of links and list of departure intervals", "why_tests_cant": "it ranges over all histories, paths and departures", "anchors": ["macposts/_ext/dta.cpp: build_link_cost_map, get_path_tt, get_registered_path_tt", "src/dta_gradient_utls.cpp: get_path_travel_time, get_path_travel_cost"]}
{"id": "C91", "title": "Link queries return the right entries", "statement": "get_link_tt returns, for every registered link and start interval, the travel time reported for entering then, in seconds, cut off at twenty times the free-flow time; get_link_inflow returns the flow that entered in each period. Starts and periods outside the loading are refused.", "quantifier": "every set of links, loading, and list of starts or periods", "why_tests_cant": "it ranges over all histories and queries", "anchors": ["macposts/_ext/dta.cpp: get_link_tt, get_link_inflow"]}
{"id": "C92", "title": "The lowest cost path is the cheapest by the reported costs", "statement": "The path that the tool finds for an origin, destination and departure interval has the least cost, as reported by the path query for the same departure, of all paths.", "quantifier": "every network, tables of travel times and costs, origin, destination and departure", "why_tests_cant": "it compares with all paths of all networks", "anchors": ["macposts/_ext/mcdta.cpp: update_tdsp_tree, get_lowest_cost_path", "src/shortest_path.cpp: MNM_TDSP_Tree", "src/dta_gradient_utls.cpp: get_path_travel_cost"]}
{"id": "C93", "title": "Departing later never means arriving earlier", "statement": "By the reported travel times, a vehicle that enters a link, or departs on a path, in a later interval does not leave or arrive before one of an earlier interval.", "quantifier": "every pair of entry and exit histories of every link, every path and pair of departures", "why_tests_cant": "it ranges over all histories, paths and pairs of departures", "anchors": ["src/dta_gradient_utls.cpp: get_travel_time_from_cc, get_path_travel_time", "macposts/_ext/dta.cpp: build_link_cost_map, get_path_tt"]}
{"id": "C94", "title": "Queue dissipation times", "statement": "For every link and interval, the reported queue dissipation time is the first later interval whose travel time is the free-flow time, if the link is congested in the interval; the end of the next congestion, if the link is not congested but a vehicle entering now would leave while it discharges at capacity; and the interval itself otherwise.", "quantifier": "every table of travel times, every pair of entry and exit histories, every supported link type", "why_tests_cant": "it ranges over all tables and histories", "anchors": ["macposts/_ext/dta.cpp: get_link_queue_dissipated_time"]}
{"id": "C95", "title": "Marginal travel times", "statement": "For every link and interval, the computed marginal travel time is the free-flow time plus the time from the first interval in which the entry of the link has room for one more vehicle until the queue that this vehicle joins or causes has dissipated; it is at least the free-flow time and, unless it is longer than the whole period, at least the travel time of the interval of entry.", "quantifier": "every table of travel times, every pair of entry and exit histories, every supported link type", "why_tests_cant": "it ranges over all tables and histories", "anchors": ["src/dso.cpp: build_link_cost_map, get_link_marginal_cost"]}
{"id": "C96", "title": "Averaged link travel times", "statement": "get_link_tt_robust returns for every registered link and period the mean, in seconds and cut off, of the travel times reported at evenly spaced intervals of the period.", "quantifier": "every set of links, loading, list of periods and number of samples", "why_tests_cant": "it ranges over all histories and queries", "anchors": ["macposts/_ext/dta.cpp: get_link_tt_robust", "src/dta_gradient_utls.cpp: get_travel_time_robust"]}
{"id": "C97", "title": "The curves of a link record the vehicles that moved", "statement": "After every loading, the inflow curve of a link tells at each interval how many vehicles have entered it, the outflow curve how many have left it, never more than entered; the difference is on the link; the travel time reported for the link follows from these vehicles.", "quantifier": "every network, demand, routing and random choices, every number of intervals, every link with curves", "why_tests_cant": "it ranges over all executions of the loading", "anchors": ["src/dnode.cpp: MNM_Dnode_Inout::move_vehicle, MNM_DMOND, MNM_DMDND", "src/dlink.cpp: install_cumulative_curve", "src/ults.cpp: add_increment, get_result", "src/dta_gradient_utls.cpp: get_travel_time"]}
{"id": "C98", "title": "Assignment ratios reproduce link flows", "statement": "After every loading, for every registered link and period, the dynamic assignment ratios times the path flows, added up over the registered paths and departure intervals, are the flow that entered the link in the period; the departure interval of a vehicle is the assignment interval in which it was released, and recording the ratios does not disturb the loading.", "quantifier": "every network, demand, routing and random choices, every set of links and paths, every list of periods and path flows", "why_tests_cant": "it ranges over all executions of the loading and all queries", "anchors": ["src/dnode.cpp: MNM_Dnode_Inout::move_vehicle", "src/cc_tree.cpp: add_flow", "src/dlink.cpp: install_cumulative_curve_tree", "src/od.cpp: release_one_interval", "macposts/_ext/dta.cpp: get_complete_dar_matrix"]}
{"id": "C99", "title": "Curves of cars and of trucks tell what the vehicles of the class did", "statement": "In a network with cars and trucks, after every loading the car curves of a link give, at every interval end, the number of cars that have entered and left the link by then, the truck curves the same of trucks, no class leaves faster than it enters, the vehicles of a class that entered and have not left are on the link, and the travel time reported for a class is that of its vehicles.", "quantifier": "every network with two classes, demand, routing, mix of link models, attribute changes and random choices, every link, class and time", "why_tests_cant": "it ranges over all executions of the loading and all queries", "anchors": ["src/multiclass.cpp: move_vehicle", "src/multiclass.cpp: get_travel_time_car", "src/multiclass.cpp: get_travel_time_truck", "src/dlink.cpp: get_result"]}
{"id": "C100", "title": "Queries of a network with cars and trucks report each class and do not interfere", "statement": "In a network with cars and trucks, link travel times, averaged link travel times, link speeds, link inflows and, once the tables are built, path travel times and path costs of a class are those of the vehicles of this class; they are the same whatever queries for either class were made before, and do not depend on the other class; starts after the loading are refused.", "quantifier": "every loaded network with two classes, every sequence of queries before, every class, every list of links and start intervals", "why_tests_cant": "it ranges over all loadings and all sequences of queries", "anchors": ["macposts/_ext/mcdta.cpp: build_link_cost_map, get_car_link_tt, get_truck_link_tt, get_car_link_speed, get_truck_link_speed, get_link_car_inflow, get_link_truck_inflow, get_avg_link_on_path_tt_car, get_path_tt_car, get_path_tt_truck, get_registered_path_tt_car, get_registered_path_tt_truck", "src/multiclass.cpp: get_travel_time_car, get_travel_time_truck"]}
{"id": "C101", "title": "Queue dissipation times of cars and trucks are those of the class", "statement": "After a loading of a network with cars and trucks, computing the link travel times with congestion marks and then the queue dissipation times succeeds for all point-queue and cell-transmission links. For each class, link and interval the mark says whether the travel time of that class exceeds its free-flow time, and the dissipation time is the next interval without congestion (the number of intervals if there is none) if the link is congested, the end of the next congestion if the link is uncongested but discharges at its capacity for the class, and the interval itself otherwise. Link-queue links are refused with an exception.", "quantifier": "every network, loading, class, link, interval, unit time and flow scalar within the exact range", "why_tests_cant": "the rows depend on whole histories of both classes; a test sees a few profiles and cannot exclude that one class's table, capacity or free-flow time leaks into the other's", "anchors": ["macposts/_ext/mcdta.cpp: Mcdta::build_link_cost_map, Mcdta::get_link_queue_dissipated_time", "src/multiclass.cpp: MNM_Dlink_Multiclass::get_link_freeflow_tt_loading_car, get_link_freeflow_tt_loading_truck"]}
{"id": "C102", "title": "Travel time gradients follow the additional vehicle along the path", "statement": "After a loading, the travel time gradients (get_car_ltg_matrix, get_truck_ltg_matrix) can be computed for every start in the loading. An additional vehicle is followed along each registered path: it changes a point queue from its arrival on, and another link from the time on at which the queue it joined on the previous link has dissipated. For each registered link that is then congested, one gradient is reported for every interval of entry until the queue has dissipated or travel times are no longer known; it is the interval length divided by the mean departure flow of the class between the departure of the additional vehicle and that of the last delayed one. In particular, every gradient is positive and belongs to a registered link of the path in an interval at or after the start in which the link is congested. Starts after the loading are refused.", "quantifier": "every network, loading, path set, set of starts, threshold and class", "why_tests_cant": "chains dissipation times, travel times and departure curves over paths of any length; wrong windows or a wrong class only show for particular queues at the end of the loading", "anchors": ["macposts/_ext/mcdta.cpp: Mcdta::get_car_ltg_matrix, Mcdta::get_truck_ltg_matrix", "src/multiclass.cpp: MNM_DTA_GRADIENT::get_departure_cc_slope_car, get_departure_cc_slope_truck, add_ltg_records_veh"]}
{"id": "C103", "title": "Matrices of travel time gradients add up the gradients", "statement": "After a loading of a network with cars and trucks, if the given number of assignment intervals covers the loading and the paths are numbered from 0, the complete matrix of travel time gradients of a class (get_complete_car_ltg_matrix, get_complete_truck_ltg_matrix) can be computed for every start in the loading, all positions are inside the matrix, and the entry in row (position of the link among the registered ones) + (number of registered links) * (assignment interval of entry) and column (path) + (number of paths) * (assignment interval of start) is the sum of the gradients that get_car_ltg_matrix or get_truck_ltg_matrix report for this link, path and these assignment intervals; starts after the loading are refused.", "quantifier": "every network, loading, path set, set of starts, threshold, length and number of assignment intervals and class", "why_tests_cant": "the loop that collects consecutive entries of one assignment interval has to be right for every alignment of entries and assignment intervals", "anchors": ["macposts/_ext/mcdta.cpp: Mcdta::get_complete_car_ltg_matrix, Mcdta::get_complete_truck_ltg_matrix", "src/multiclass.cpp: MNM_DTA_GRADIENT::add_ltg_records_eigen_veh"]}
{"id": "C104", "title": "Assignment ratios of cars and trucks reproduce the link flows", "statement": "Installing trees of curves does not disturb a loading of cars and trucks, and the tree of a class at a link records the vehicles of the class alone, by path and assignment interval of departure. Afterwards get_car_dar_matrix and get_truck_dar_matrix list, for every registered link and period within the loading, each registered path and departure interval of which vehicles of the class have come to the link in the period, once, with their flow. The rows that save_car_dar_matrix and save_truck_dar_matrix write and the entries of get_complete_car_dar_matrix and get_complete_truck_dar_matrix are these flows divided by the path flows given, at different places inside the matrix; the ratios times the path flows, added up over paths and departure intervals, are the flow of the class that entered the link in the period. Periods outside the loading and links without trees are refused.", "quantifier": "every two-class network, demand, routing, release mode, loading of fewer than 10000 intervals, list of links, list of periods, set of registered paths and vector of path flows, for each class", "why_tests_cant": "the class, path and departure interval of every vehicle have to be recorded at every movement, and the sums have to come out for every loading", "anchors": ["macposts/_ext/mcdta.cpp: Mcdta::get_car_dar_matrix, Mcdta::get_truck_dar_matrix, Mcdta::save_car_dar_matrix, Mcdta::save_truck_dar_matrix, Mcdta::get_complete_car_dar_matrix, Mcdta::get_complete_truck_dar_matrix", "src/multiclass.cpp: MNM_Dlink_Multiclass::install_cumulative_curve_tree_multiclass, MNM_Dnode_Inout_Multiclass::move_vehicle, MNM_DTA_GRADIENT::add_dar_records_car, MNM_DTA_GRADIENT::add_dar_records_eigen_car"]}
{"id": "C105", "title": "Every passenger is in exactly one place", "statement": "In a loading of a multimodal network, after every interval and whenever a bus calls at a stop, every passenger made so far is in exactly one of the containers of the simulation (queue of an origin, incoming array, link or end of a link, bus, parking lot, arrived), no container has a passenger twice or a passenger that was never made, and the link a passenger is said to be on is that of its container; passengers on a bus are on a bus link of the route of the bus.", "quantifier": "every multimodal network, demand, set of paths, mixture of fixed and adaptive passengers, bus movements, arrivals at parking lots, with simulated or without simulated buses, and number of intervals", "why_tests_cant": "a passenger lost or doubled shows only after the one sequence of moves that loses it", "anchors": ["src/multimodal.cpp: MNM_Origin_Multimodal::evolve, MNM_Destination_Multimodal::evolve, MNM_Busstop_Physical::evolve, MNM_Busstop_Virtual::virtual_evolve, MNM_Walking_Link::clear_incoming_array, MNM_Walking_Link::evolve, MNM_Bus::board_and_alight, MNM_Parking_Lot::evolve, MNM_Dta_Multimodal::load_once"]}
{"id": "C106", "title": "Passengers travel along their paths to their destinations", "statement": "In a loading of a multimodal network the movements of a passenger join up: the first starts at an origin or parking lot, every other one on the link where the previous one ended, and the last one ends where the passenger is. A passenger on a fixed route enters the links of a path of its origin and destination (or of the path its car came with), in order from the first, and all of them by the time it arrives. Passengers that have arrived did so at their own destination over a link that leads to it, in the interval recorded as the end of their trip; no other passenger has arrived anywhere.", "quantifier": "every multimodal network, demand, set of paths without immediate repetitions, shuffling of queues, bus movements and number of intervals", "why_tests_cant": "skipped or repeated links depend on the interleaving of routing updates with walking, boarding and alighting", "anchors": ["src/multimodal.cpp: MNM_Routing_PassengerBusTransit_Fixed::update_routing, MNM_Routing_Multimodal_Adaptive::update_routing_passenger, MNM_Destination_Multimodal::receive, MNM_Bus::board_and_alight, MNM_Busstop_Virtual::release_bus"]}
{"id": "C107", "title": "Curves of transit links count passengers", "statement": "After a loading of a multimodal network of fewer than 10000 intervals the value of the inflow curve of a walking or bus link at time t is the number of passengers that entered the link before interval t, in flow units, and likewise for the outflow curve and the passengers that left; at no time have more left than entered, and the passengers that entered are those that left and those that are on the link.", "quantifier": "every multimodal network, loading of fewer than 10000 intervals, link and time", "why_tests_cant": "every one of a dozen places that move passengers has to record both the link left and the link entered", "anchors": ["src/multimodal.cpp: MNM_Transit_Link, MNM_Busstop_Virtual::release_bus, MNM_Bus::board_and_alight, MNM_Busstop_Physical::evolve"]}
{"id": "C108", "title": "Passengers get on and off buses as the rules say", "statement": "A bus never carries more passengers than its capacity times the flow scalar, rounded down. When a bus calls at a stop and leaves, nobody gets on or off and everybody on board is to ride on from there. When it stays and its doors are open (it has been there longer than the time to open them), those who are to get off here do so, in order, up to the alighting rate, and then those at the end of the boarding link get on, first in line first, up to the number of places and the boarding rate; if the doors are not open yet nobody moves.", "quantifier": "every multimodal network with simulated buses, loading, bus, stop and call of the bus at the stop; flow scalar at least 1 and door time not negative", "why_tests_cant": "limits bind only for particular numbers of passengers on board, waiting and leaving", "anchors": ["src/multimodal.cpp: MNM_Bus::board_and_alight, MNM_Busstop_Virtual::hold_bus, MNM_Busstop_Virtual::release_bus"]}
{"id": "C109", "title": "Every k-th bus stops", "statement": "With flow scalar k (rounded down, at least 1) a bus that calls at a stop after n buses have left the stop leaves at once, with everybody on board, unless k divides n + 1; if k divides n + 1 it waits while another bus is served there, and is served otherwise. The curves of the stop tell n and the number of buses at the stop.", "quantifier": "every multimodal network with simulated buses, loading of fewer than 9999 intervals, bus, stop and call of the bus at the stop", "why_tests_cant": "the counter has to agree with the number of buses after every history of arrivals, waits and departures", "anchors": ["src/multimodal.cpp: MNM_Busstop_Virtual::hold_bus, MNM_Busstop_Virtual::release_bus, MNM_Busstop_Virtual::receive_bus"]}
{"id": "C110", "title": "A served bus does not leave too early", "statement": "If a bus whose turn it is to be served leaves a stop, then nobody on board is to get off there, nobody waits there for a bus of its route while it has a place left, and it has been at the stop for at least the minimal dwell time, unless it was full when it came.", "quantifier": "every multimodal network with simulated buses, loading of fewer than 9999 intervals, bus, stop and call; flow scalar at least 1 and door time not negative", "why_tests_cant": "depends on who boards and alights between the calls", "anchors": ["src/multimodal.cpp: MNM_Busstop_Virtual::hold_bus, MNM_Busstop_Virtual::release_bus"]}
{"id": "C111", "title": "Parking lots count cars and report search times", "statement": "After a loading the occupancy of a parking lot is the number of cars that have come to it. Asked for the time to find a place, it answers with the average time for time 0, for times up to the end of the loading with the value computed from the cars that had come before that time, and with the last of these values for later times.", "quantifier": "every multimodal network in which destinations have different parking lots, every loading, lot and time", "why_tests_cant": "the record has one entry per interval for every length of the loading", "anchors": ["src/multimodal.cpp: MNM_Parking_Lot::release_one_interval_passenger, MNM_Parking_Lot::get_cruise_time"]}
{"id": "C112", "title": "Counters of passengers agree with the passengers", "statement": "After a loading of a multimodal network the number of passengers made is the number underway plus the number arrived; the total travel time is the sum of the travel times of those arrived; the number of park-and-ride passengers is the number of park-and-ride cars that came to parking lots, and is the number of those underway plus those arrived; start times are in the loading, and end times after them or unset; and the record of passengers underway has for every interval the number of those who have set out by its end and have not arrived by then.", "quantifier": "every multimodal network in which destinations have different parking lots, every loading and number of intervals", "why_tests_cant": "counters are changed at several places and have to agree after every history", "anchors": ["src/multimodal.cpp: MNM_Passenger_Factory::make_passenger, MNM_Passenger_Factory::remove_finished_passenger, MNM_Parking_Lot::release_one_interval_passenger, MNM_Dta_Multimodal::record_enroute_passengers"]}
{"id": "C113", "title": "Walking takes the walking time of the link", "statement": "In a loading of a multimodal network a passenger that enters a walking link on foot leaves it after the walking time of the link (at least one interval) or later. If it came from another link and the link leads to a destination or a physical bus stop, it leaves after exactly this time, and a passenger still on such a link has been on it for at most this time.", "quantifier": "every multimodal network, demand, set of paths, waiting times, bus movements and number of intervals, every passenger and walking link", "why_tests_cant": "the time is kept by counters aged once an interval, and who is aged depends on the order of clearing, walking and moving in the interval", "anchors": ["src/multimodal.cpp: MNM_Walking_Link::clear_incoming_array, MNM_Walking_Link::evolve, MNM_Destination_Multimodal::evolve, MNM_Busstop_Physical::evolve, MNM_Dta_Multimodal::load_once"]}
{"id": "C114", "title": "Bus stops without simulated buses serve passengers in order up to their limits", "statement": "In an interval of a multimodal loading without simulated buses a stop serves the passengers at the end of the bus link into it first in, first out: those riding on go to the next bus link, and at most the alighting limit (times the integer part of the flow scalar) get off; the line stops only before somebody who wants to get off when the limit is reached. Then it serves the passengers at the end of its boarding link in the same way up to the boarding limit. Everybody served moves to the next link of their path in this interval, nobody else moves.", "quantifier": "every multimodal network, stop with or without links on either side, interval and state", "why_tests_cant": "limits bind only for particular orders and numbers of passengers", "anchors": ["src/multimodal.cpp: MNM_Busstop_Virtual::virtual_evolve"]}
{"id": "C115", "title": "A charging station serves its queues in order, one vehicle per slot", "statement": "A charging station gives every arriving vehicle to the first one of its shortest queues; a slot charges one vehicle at a time, first in first out, each for the charging time, and takes the next vehicle one interval after the last one left. So when a vehicle leaves is a function of when vehicles joined its queue, and a vehicle that finds k vehicles in its queue leaves after at least the charging time and at most k times (charging time + 1) plus the charging time.", "quantifier": "all stations (slots, flow scalar, charging time, links), all arrivals of vehicles in every interval, all orders in which links are processed, all numbers of intervals", "why_tests_cant": "The order of links is random in every interval and queues interact through arrivals over time; a test sees one history.", "anchors": ["src/ev_traffic.cpp MNM_Charging_Station::evolve", "src/ev_traffic.cpp MNM_Charging_Station::move_out_veh"]}
{"id": "C116", "title": "A charging station records how many vehicles it charged and how long its shortest queue was", "statement": "At any time the curve of a charging station gives the number of vehicles it has charged until then, in flow units, and the curves of the links around it count a vehicle as leaving one link and entering the next when it leaves the station; the record of waiting times has one entry per interval, which is the charging time of the vehicles in a shortest queue.", "quantifier": "all stations, all arrivals, all intervals and all times of queries before interval 10000", "why_tests_cant": "The counts must agree with every history of arrivals, not with one.", "anchors": ["src/ev_traffic.cpp MNM_Charging_Station::evolve", "src/ev_traffic.cpp MNM_Charging_Station::move_out_veh", "src/ev_traffic.cpp MNM_Charging_Station::get_current_estimated_waiting_time"]}
{"id": "C117", "title": "Charging fills the battery of the vehicle that leaves and touches nothing else", "statement": "A vehicle that leaves a charging station has a full battery, has travelled no distance since, has no charging station assigned any more and is on its next link; a vehicle that waits changes only its timer, and other vehicles do not change. A station with at least one queue never fails on vehicles that were routed to it.", "quantifier": "all stations, all histories of arrivals and all vehicles", "why_tests_cant": "Vehicles wait through arbitrarily many intervals with others ahead of them; the failure depends on the flow scalar.", "anchors": ["src/ev_traffic.cpp MNM_Veh_Electrified::charge", "src/ev_traffic.cpp MNM_Charging_Station::evolve", "src/ev_traffic.cpp MNM_Charging_Station::MNM_Charging_Station"]}
{"id": "C118", "title": "The records of vehicles under way and in queues count what happened", "statement": "After a loading, get_enroute_and_queue_veh_stats_agg has one row per interval with the vehicles in the network at the end of the interval, those in the queues of links that are not point queues, and the difference, in flow units; get_queue_veh_each_link gives for a link and an interval the vehicles that had reached the end of the link before the interval and did not leave it in the interval. Queries for links that do not exist or intervals that were not simulated fail.", "quantifier": "all networks with cars and trucks, link models, demands, routings, random choices, loadings of any length, links and intervals", "why_tests_cant": "The records must agree with every history of the loading; a test sees one, on a network where links seldom have queues.", "anchors": ["src/multiclass.cpp MNM_Dta_Multiclass::record_queue_vehicles", "src/dta.cpp MNM_Dta::record_enroute_vehicles", "macposts/_ext/mcdta.cpp get_enroute_and_queue_veh_stats_agg", "macposts/_ext/mcdta.cpp get_queue_veh_each_link"]}
{"id": "C119", "title": "Waiting times at intersections are times vehicles spent at the end of links", "statement": "After a loading, get_waiting_time_at_intersections (and its versions for cars and trucks) returns for a registered link the time vehicles spent at the end of the link, in intervals begun, divided by the number of vehicles that entered it.", "quantifier": "all networks with cars and trucks, link models, demands, routings, random choices, loadings of any length and links", "why_tests_cant": "Waiting is added up in every interval by each link model in a different place; only an argument over all intervals shows that nobody is counted twice or missed.", "anchors": ["src/multiclass.cpp MNM_Dlink_Multiclass", "src/multiclass.cpp get_average_waiting_time_at_intersection", "macposts/_ext/mcdta.cpp get_waiting_time_at_intersections"]}
{"id": "C120", "title": "Coverage of registered links is decided correctly", "statement": "get_registered_links_coverage_in_registered_paths has one row per registered path and one column per registered link, 1 if the link is on the path and 0 otherwise; are_registered_links_in_registered_paths is 1 exactly for the links on some registered path.", "quantifier": "all sets of registered paths and links", "why_tests_cant": "The loop stops early; all combinations of paths and links matter.", "anchors": ["macposts/_ext/mcdta.cpp get_registered_links_coverage_in_registered_paths", "macposts/_ext/mcdta.cpp check_registered_links_in_registered_paths", "src/path.cpp MNM_Path::is_link_in"]}
{"id": "C121", "title": "Links without paths get the fastest paths over them", "statement": "generate_paths_to_cover_registered_links adds, for each registered link that is on no registered path and on none generated before, the path of an origin and destination with demand that is fastest at free flow among those over the link; it adds nothing else, reports which registered links are on paths now, and leaves (with one class: throws for) exactly the links that no way between a pair with demand uses. It changes nothing and says so if all links have paths.", "quantifier": "all graphs, free-flow travel times, demands, path tables, registered paths and links, orders of iteration and shuffles", "why_tests_cant": "The new path is put together from two shortest path trees, one of them on the reversed graph; that the result is a way through the network and no other over the link is faster must hold for every graph and every random order.", "anchors": ["macposts/_ext/mcdta.cpp generate_paths_to_cover_registered_links", "macposts/_ext/dta.cpp generate_paths_to_cover_registered_links", "src/shortest_path.cpp all_to_one_FIFO", "src/path.cpp MNM::extract_path"]}
{"id": "C122", "title": "Links can be covered again without duplicate paths", "statement": "generate_paths_to_cover_links tries the given number of times for each link and adds only fastest paths over the link that the path set does not have; the returned counters are the numbers of new paths that use each link, and a link without new path is on no way between pairs with demand or was on a path of the table already.", "quantifier": "all graphs, free-flow travel times, demands, path tables, links, numbers of tries, orders of iteration and shuffles", "why_tests_cant": "Which path a try finds depends on a shuffle; only an argument over all of them excludes duplicates and wrong counters.", "anchors": ["macposts/_ext/mcdta.cpp generate_paths_to_cover_links", "src/path.cpp MNM_Pathset::is_in"]}
{"id": "C123", "title": "Electrified vehicles need charging when their range runs low", "statement": "An electrified vehicle that uses roadside stations needs charging exactly when the range it started with (before its first charging) or its full range (afterwards), less the miles of the links left through junctions since, is at most a tenth of the full range; a vehicle with a single trip also needs charging as long as it has not left any link but point queues. Vehicles that do not use roadside stations never need charging.", "quantifier": "all ranges, kinds of vehicles and all histories of links and chargings", "why_tests_cant": "The range is the sum over an unbounded history with resets at each charging; a unit test sees one history.", "anchors": ["src/ev_traffic.cpp MNM_Veh_Electrified::need_charging", "src/ev_traffic.cpp MNM_Veh_Electrified::charge", "src/ev_traffic.cpp MNM_Veh_Electrified::update_miles_traveled"]}
{"id": "C124", "title": "Each pair of origin and destination has the best of its charging stations", "statement": "When routes are updated, every link costs its travel time times the value of time plus its toll, and links into charging stations also waiting, charging and price; for every pair of origin and destination with candidate stations the chosen one is a candidate such that no way over any candidate is cheaper, whatever the order in which candidates are looked at. Before a loading, exactly the candidates that can be reached and from which the destination can be reached are kept.", "quantifier": "all graphs, travel times, tolls, queues at stations, prices, candidates, orders of iteration and shuffles", "why_tests_cant": "The choice compares ways that come from several shortest path trees; that none is cheaper must hold for every network and state of the queues.", "anchors": ["src/ev_traffic.cpp MNM_Routing_Adaptive_With_POIs::update_link_cost", "src/ev_traffic.cpp MNM_Routing_Adaptive_With_POIs::update_routing", "src/ev_traffic.cpp MNM_Routing_Adaptive_With_POIs::update_best_POI", "src/ev_traffic.cpp MNM_Routing_Adaptive_With_POIs::check_od_candidate_poi_table_connectivity"]}
{"id": "C125", "title": "Electrified vehicles drive to their stations and then to their destinations", "statement": "With adaptive routing, a vehicle that needs charging at an origin gets the best station of its pair and is sent along a cheapest way to it; at link ends it is sent along a cheapest way to its station as long as it needs charging and has one, and to its destination otherwise; at its station it is sent on along a cheapest way to its destination. Routing fails exactly if there is no way; vehicles with fixed routing are left alone.", "quantifier": "all graphs, trees of cheapest ways, vehicles, random draws", "why_tests_cant": "Which way a vehicle takes depends on the state of its battery and on trees over the whole network.", "anchors": ["src/ev_traffic.cpp MNM_Routing_Adaptive_With_POIs::update_routing", "src/ev_traffic.cpp MNM_Routing_Adaptive_With_POIs::set_shortest_path_tree"]}
{"id": "C126", "title": "Vehicles with several trips make them in order", "statement": "A delivery vehicle makes the trips of its sequence one after the other: the trips begun are always a prefix of the sequence, the destinations of completed trips are the ones that received it, in this order, and it is finished exactly when the destination the sequence ends at has received it; at every other destination it joins the queue of the origin of its next trip and is told to wait for that origin's pick-up time. If the last destination occurs only at the end, a finished vehicle has made all its trips.", "quantifier": "all sequences, demands, random draws, numbers of intervals and everything that may happen between origins and destinations", "why_tests_cant": "The order must hold for every sequence and every interleaving of vehicles; tests look at a few tours.", "anchors": ["src/delivery_traffic.cpp: MNM_Veh_Delivery::move_to_next_od, MNM_Destination_Delivery::receive", "src/ev_traffic.cpp: MNM_Origin_EV"]}
{"id": "C127", "title": "Delivery and electrified vehicles are in one place and are counted right", "statement": "At any time each vehicle under way is in exactly one place, once: the queue of the origin of its current trip, the road or the queue of one destination; finished vehicles are nowhere. The numbers of vehicles under way and finished, of delivery vehicles, of electrified vehicles and of those that do not use roadside charging, and the total travel time of finished vehicles, are what they should be.", "quantifier": "all runs: demands, random draws, numbers of intervals, anything between origins and destinations", "why_tests_cant": "Counters and places must agree after every history, in particular as vehicles come back to origins several times.", "anchors": ["src/delivery_traffic.cpp: MNM_Veh_Factory_Delivery, MNM_Destination_Delivery::receive", "src/ev_traffic.cpp: MNM_Veh_Factory_EV"]}
{"id": "C128", "title": "Origins release the delivery and electrified vehicles they should", "statement": "In a release interval an origin makes, for each destination and each sequence of trips, the scaled demand, rounded, of vehicles; each has the right start, origin, first destination, interval and label; it is electrified exactly if its label is the one for electrified vehicles, uses roadside charging according to its draw, starts with the range for its kind, and is adaptive if its draw says so or if it has to charge on its first trip. The vehicles join the queue of the origin, and nothing else changes. Electrified delivery vehicles that wait at an origin are adaptive as long as they need charging, and otherwise according to a draw.", "quantifier": "all origins, demands that are not negative, labels, shares and random draws", "why_tests_cant": "Attributes depend on several draws and thresholds; tests sample a few vehicles.", "anchors": ["src/ev_traffic.cpp: MNM_Origin_EV::release_one_interval, adjust_multi_OD_seq_veh_routing_type, make_veh_electrified, make_veh_electrified_delivery", "src/delivery_traffic.cpp: MNM_Origin_Delivery::release_one_interval"]}
{"id": "C129", "title": "Delivery vehicles wait at pick-ups", "statement": "A delivery vehicle that comes to the point queue of an origin enters it at most once and not before it has waited for its pick-up time; other vehicles, and vehicles at other point queues, do not have to wait. At most the supply, rounded up, enters per interval; a vehicle is kept outside only because it still has to wait or the supply is used up; if the supply is always enough, it enters exactly when it has waited.", "quantifier": "all supplies, schedules of vehicles that come at most once, waiting times", "why_tests_cant": "Waiting interacts with supply and with other vehicles over many intervals.", "anchors": ["src/delivery_traffic.cpp: MNM_Dlink_Pq_Delay::clear_incoming_array"]}
{"id": "C130", "title": "Travel times of passenger paths are the sum of their parts", "statement": "The travel time of a driving path is the walk to the car, the links, each at the travel time of the interval in which it is entered, the cruising for parking at the time of arrival, and the walk from the car, all in whole intervals; that of a transit path is that of its links, or twice the loading if a link takes longer than the whole loading; that of a park-and-ride path is the drive followed by the transit trip from the arrival of the drive. If no link and no parking lot lets later arrivals finish earlier, a later departure never leads to an earlier arrival.", "quantifier": "all tables of travel times, paths, parking records and departures", "why_tests_cant": "Times depend on the interval of entry of every link, so every prefix changes the rest; a test fixes one table.", "anchors": ["src/multimodal.cpp: MNM_Passenger_Path_Driving::get_travel_time", "src/multimodal.cpp: MNM_Passenger_Path_Bus::get_travel_time", "src/multimodal.cpp: MNM_Passenger_Path_PnR::get_travel_time", "src/multimodal.cpp: MNM_Parking_Lot::get_cruise_time"]}
{"id": "C131", "title": "Costs of passenger paths", "statement": "The cost of a trip is the value of its time, a penalty for every interval of early or late arrival, and the fees of the mode: carpooling, parking and tolls for driving, fare and inconvenience for transit, all of these that apply for park-and-ride; a shorter trip from the same departure is never dearer.", "quantifier": "all preferences with penalties that are not negative, all times, fees and paths", "why_tests_cant": "The cost is piecewise in the arrival and has parts per mode; tests check single values.", "anchors": ["src/multimodal.cpp: MNM_Passenger_Path_Driving::get_travel_cost_with_tt", "src/multimodal.cpp: MNM_Passenger_Path_Bus::get_travel_cost_with_tt", "src/multimodal.cpp: MNM_Passenger_Path_PnR::get_travel_cost_with_tt", "src/multimodal.cpp: get_wrongtime_penalty"]}
{"id": "C132", "title": "Initial passenger flows and the best existing path", "statement": "The initial flows of a pair add up to its demand in every interval, with equal shares for its modes, and exist exactly if the pair has a mode and every one of its modes a path. The best existing path and departure cost no more than any path of any mode at any departure; none is found only if there is no path.", "quantifier": "all demands, path sets, costs", "why_tests_cant": "A minimum over all modes, paths and departures must hold for all cost tables, including ties.", "anchors": ["src/multimodal.cpp: MNM_MM_Due::init_passenger_path_flow", "src/multimodal.cpp: get_best_existing_path"]}
{"id": "C133", "title": "Averaging with fixed departure times keeps and improves passenger flows", "statement": "After an update every interval of a pair carries the same number of passengers, no flow is negative, paths are only added; every path other than the best of an interval keeps the same share of its passengers. With existing paths only the update never fails if there is a path, and the disutility of all passengers together goes down by the configured share of what they would save on the cheapest path.", "quantifier": "all pairs, step sizes, best paths, disutilities, numbers of intervals", "why_tests_cant": "Conservation and descent must hold after any number of updates on any tables.", "anchors": ["src/multimodal.cpp: update_path_table_fixed_departure_time_choice"]}
{"id": "C134", "title": "Averaging with departure time choice keeps passengers", "statement": "After an update that moves passengers to the best path and departure, the pair has the same number of passengers over all intervals, no flow is negative, and paths are only added; the update never fails if the best path is of a mode of the pair.", "quantifier": "all pairs, step sizes, iterations, best paths and departures", "why_tests_cant": "Both branches (new and known path) must conserve over all tables.", "anchors": ["src/multimodal.cpp: MNM_MM_Due::update_path_table"]}
{"id": "C135", "title": "Gradient projection keeps and improves passenger flows", "statement": "Whenever gradient projection returns, every interval of a pair carries the same number of passengers, no flow is negative and paths are only added. With a step of at most one it never fails and never raises the disutility of all passengers together; passengers move from paths dearer than a common level to cheaper ones, in proportion to the difference, and some path gives away the full share of the step unless all paths in play are equally cheap.", "quantifier": "all pairs, steps, best paths, disutilities", "why_tests_cant": "The projection must keep feasibility for all tables; a test sees one.", "anchors": ["src/multimodal.cpp: update_path_table_gp_fixed_departure_time_choice"]}
{"id": "C136", "title": "The gap measures the distance from equilibrium", "statement": "The gap is never negative and always defined, and it is zero exactly if no passenger could save by another path (and departure, if that is chosen) of the pair.", "quantifier": "all tables of passenger paths", "why_tests_cant": "An equivalence over all tables.", "anchors": ["src/multimodal.cpp: compute_merit_function", "src/multimodal.cpp: compute_merit_function_fixed_departure_time_choice"]}
{"id": "C137", "title": "Logit shares of the modes", "statement": "The shares of the modes are a distribution, zero exactly for modes of infinite cost, defined exactly if some mode has a finite cost; the odds of two modes follow from the difference of their costs, so the cheaper mode has the larger share. If demands make the disutilities of all modes equal, the logit shares are the shares of the demands.", "quantifier": "all costs, constants and coefficients", "why_tests_cant": "An identity over the real numbers.", "anchors": ["src/multimodal.cpp: logit_fn", "src/multimodal.cpp: MNM_MM_Due::get_disutility"]}
{"id": "C138", "title": "Passenger flows become the demand of the loading", "statement": "For every mode of a pair the entries of an assignment interval of the loading add up to the vehicles (passengers over persons per vehicle) of the paths in this interval, at the first entry or spread evenly over as many entries as get at least one vehicle each; other entries are zero and nothing else is written.", "quantifier": "all flows, numbers of intervals, scalings, splits", "why_tests_cant": "Spreading has a data-dependent number of entries and the arrays have sizes of two different origins.", "anchors": ["src/multimodal.cpp: update_origin_demand_from_passenger_path_table"]}
{"id": "C139", "title": "Logit shares become the demand of the loading", "statement": "In an interval every mode that is on gets its share of the demand of the pair, spread as configured, and its tally grows by it; the demand of other modes is zero in the interval, other intervals are untouched; so all entries together are the demand times the shares.", "quantifier": "all shares, demands, sets of modes, existing arrays", "why_tests_cant": "The result depends on which modes are on and which arrays exist.", "anchors": ["src/multimodal.cpp: MNM_MM_Due::update_origin_demand_logit_model"]}
{"id": "C140", "title": "Passenger paths become path tables", "statement": "The path tables made from passenger paths have every path once; its flow is the sum over the passenger paths with the same links (and parking lot) of passengers over persons per vehicle, and truck flows are those of the fixed truck paths.", "quantifier": "all passenger path tables and truck path tables", "why_tests_cant": "Aggregation must hold for any multiset of paths.", "anchors": ["src/multimodal.cpp: passenger_path_table_to_multimodal_path_table"]}
{"id": "C141", "title": "Registering links", "statement": "Registering links (of cars, of walking or of buses) succeeds exactly if every given number is a link of the right class and none is repeated; then exactly these links are registered, in the given order. After an error the earlier registration is gone and the links before the first offending one are registered.", "quantifier": "all networks, all earlier registrations, all lists of numbers", "why_tests_cant": "needs all lists and all places of the first error", "anchors": ["macposts/_ext/dta.cpp: register_links", "macposts/_ext/mcdta.cpp: register_links", "macposts/_ext/mmdta.cpp: register_links_driving, register_links_walking, register_links_bus"]}
{"id": "C142", "title": "Registering paths", "statement": "Registering paths succeeds exactly if all given numbers are paths, also after failed calls; then exactly the given paths are registered in the given order and the position of a path is its first one. After an error the paths before the first unknown one are registered.", "quantifier": "all path tables, all histories of registration calls, all lists of numbers", "why_tests_cant": "the state left by failed calls matters to later calls", "anchors": ["macposts/_ext/dta.cpp: register_paths", "macposts/_ext/mcdta.cpp: register_paths"]}
{"id": "C143", "title": "Registering paths of a mode", "statement": "In the multimodal object registering the paths of a mode (or of all modes) succeeds exactly if every path of the mode is given exactly once, also after failed calls, and then these are registered in the given order.", "quantifier": "all path tables, all histories of registration calls, all lists of numbers", "why_tests_cant": "the set of numbers is never cleared: it takes an induction over all histories to see that this is harmless", "anchors": ["macposts/_ext/mmdta.cpp: register_paths, register_paths_driving, register_paths_bustransit, register_paths_pnr, register_paths_bus"]}
{"id": "C144", "title": "Numbers of all paths", "statement": "The paths of all modes are numbered without gaps: driving, then transit, park-and-ride and bus routes, each in the order of their own numbers; if some path belongs to a pair that is not in the passenger path table an error is raised.", "quantifier": "all path tables", "why_tests_cant": "bijectivity is a statement about all tables", "anchors": ["src/multimodal.cpp: create_path_ID_mapping / set_path_ID_mapping"]}
{"id": "C145", "title": "Link sequences and node sequences", "statement": "Converting a connected sequence of links into nodes and back gives a connected sequence through the same nodes, and the original one if no two links have the same ends.", "quantifier": "all graphs and all sequences of links", "why_tests_cant": "round trip over all sequences", "anchors": ["macposts/_ext/mmdta.cpp: link_seq_to_node_seq, node_seq_to_link_seq"]}
{"id": "C146", "title": "Tables of time-dependent costs", "statement": "Reading time-dependent link and turn tables gives every link (turn) the values of the last row that names it; tables of the wrong shape are rejected.", "quantifier": "all arrays, all files, all earlier contents", "why_tests_cant": "all contents and all orders of rows", "anchors": ["macposts/_ext/tdsp.cpp: read_td_cost_py, read_td_cost_txt", "src/io.cpp: read_td_link_cost, read_td_node_cost"]}
{"id": "C147", "title": "Extracted time-dependent path", "statement": "The table extracted for a node and a departure time lists the nodes and links of a least-cost walk to the destination, with its cost and travel time in the first row; if there is none of finite cost, a single row with infinite cost.", "quantifier": "all graphs, destinations, tables, nodes and departure times", "why_tests_cant": "optimality over all walks", "anchors": ["macposts/_ext/tdsp.cpp: build_tdsp_tree, extract_tdsp"]}
{"id": "C148", "title": "Time-dependent paths with turns", "statement": "With turn costs and delays the extracted path is a least-cost one and has the reported cost and travel time.", "quantifier": "all graphs, turn tables, nodes and departure times", "why_tests_cant": "optimality over all walks; agreement of two computations for all delays", "anchors": ["src/shortest_path.cpp: MNM_TDSP_Tree::update_tree, get_tdsp with node costs", "macposts/_ext/tdsp.cpp: extract_tdsp"]}
{"id": "C149", "title": "Predetermined routing: table", "statement": "The table of predetermined routing gives every listed pair with demand its whole demand on the first path and nothing on the others, and raises an error if a pair with demand has no paths. Moving a share of a pair to one of its paths keeps the total of every pair and interval equal to the demand, over any number of moves, and no entry becomes negative.", "quantifier": "all origins, destinations, demands and path tables, all sequences of moves", "why_tests_cant": "sums over all paths after any number of moves", "anchors": ["src/pre_routing.cpp: MNM_Pre_Routing::MNM_Pre_Routing, reassign_routing"]}
{"id": "C150", "title": "Predetermined routing: travelled links", "statement": "With predetermined routing as it is set up, every released vehicle travels the first path of its pair: the links it enters are the links of that path in order, and it is told to leave only after the last of them. A release inside the horizon raises no error.", "quantifier": "all networks, path tables, demands and histories of releases and movements", "why_tests_cant": "an invariant over all histories of a vehicle", "anchors": ["src/so_routing.cpp: MNM_Routing_Predetermined::update_routing, init_routing", "src/dta.cpp: set_routing (Predetermined)"]}
{"id": "C151", "title": "Predetermined routing: shares", "statement": "In each release interval as many vehicles of a pair are sent to each path as the table says.", "quantifier": "all tables, demands and queues", "why_tests_cant": "all tables and all queue lengths", "anchors": ["src/so_routing.cpp: MNM_Routing_Predetermined::update_routing"]}
{"id": "C152", "title": "The spillback indicator of a loading with cars and trucks", "statement": "After a loading with cars and trucks, get_link_spillback returns 0 or 1 for every registered link. It is 1 only if at the end of some interval the vehicles on the link, counted in car equivalents, exceeded what its jam density allows; it is never 1 for a point queue; and for a link that counts a truck as a whole number of cars it is 1 exactly if there was such an interval. With a fractional conversion factor the count is cut to whole cars cell by cell and spillback can go unnoticed.", "quantifier": "all networks, demands, attribute changes, routings, random draws and numbers of intervals, and all registered links", "why_tests_cant": "the flag depends on the whole history of a loading and on every cell of a link; a test sees one loading", "anchors": ["macposts/_ext/mcdta.cpp: Mcdta::get_link_spillback", "src/multiclass.cpp: get_is_spillback", "src/multiclass.cpp: MNM_Dlink_Ctm_Multiclass::evolve", "src/multiclass.cpp: MNM_Dlink_Lq_Multiclass::evolve"]}
{"id": "C153", "title": "Bus travel times are the wait for the next bus plus its ride", "statement": "With explicitly driven buses, an entry of get_bus_link_tt (and of its robust variant, as a mean over the intervals of the period) is the time from the passenger's interval until the bus that stands at the stop, or else the next bus to arrive there, has reached the next stop; the answer is infinite (or twice the loading time) only if there is no such bus.", "quantifier": "all histories of bus arrivals and departures at the stops, all starts and periods, all calls made before", "why_tests_cant": "The answer is derived from three cumulative curves with tolerances and a remembered last valid time; tests look at a few schedules without bunching or a bus that stands at the end.", "anchors": ["src/multimodal.cpp: get_bus_waiting_time, get_travel_time_bus, get_travel_time_bus_robust", "src/dta_gradient_utls.cpp: get_last_valid_time_bus, get_travel_time_from_cc", "macposts/_ext/mmdta.cpp: get_bus_link_tt, get_bus_link_tt_robust"]}
{"id": "C154", "title": "A passenger who comes later to a bus stop is not earlier at the next stop", "statement": "If the answer of get_bus_link_tt for a start is finite then it is finite for every earlier start, and start plus travel time is not larger for the earlier one.", "quantifier": "all histories of bus arrivals and departures, all pairs of starts, all bus links", "why_tests_cant": "First-in-first-out is a relation between any two queries over all schedules; a test compares a few.", "anchors": ["src/multimodal.cpp: get_bus_waiting_time, get_travel_time_bus", "macposts/_ext/mmdta.cpp: get_bus_link_tt"]}
{"id": "C155", "title": "Queries of travel times by bus and on foot do not disturb each other", "statement": "What get_bus_link_tt, get_bus_link_tt_robust and get_passenger_walking_link_tt return after any sequence of such calls is what they return when called first.", "quantifier": "all states, all sequences of calls, all arguments", "why_tests_cant": "Each query stores last valid times in stops and links that later queries read; the number of call sequences is unbounded.", "anchors": ["src/multimodal.cpp: get_bus_waiting_time, get_travel_time_bus, get_travel_time_walking", "macposts/_ext/mmdta.cpp: get_bus_link_tt, get_bus_link_tt_robust, get_passenger_walking_link_tt"]}
{"id": "C156", "title": "Travel times on foot, and by buses that are not driven explicitly, are never below free flow", "statement": "An entry of get_passenger_walking_link_tt is the travel time of the passengers on the link and at least its free-flow time with the historical waiting time; without explicit buses an entry of get_bus_link_tt is finite and at least the historical waiting time plus the free-flow times of the driving links followed by the bus, by their portions.", "quantifier": "all histories, all starts (also fractional ones for buses), all calls made before", "why_tests_cant": "The bound has to hold for every traffic state and every start.", "anchors": ["src/multimodal.cpp: get_travel_time_walking, get_travel_time_bus", "macposts/_ext/mmdta.cpp: get_passenger_walking_link_tt, get_bus_link_tt"]}
{"id": "C157", "title": "Emission report of a loading with cars and trucks: hours and trips", "statement": "With links registered for emissions (those of the network named in the file, each once), the loading of a network with cars and trucks is the same as without. The hours reported for a class are the time vehicles of the class have spent on registered links from entrance to exit, in flow units (with point queues among them: at most that), and the trips reported are the vehicles of the class that have entered a registered link, each once however often it does.", "quantifier": "all networks, demands, routings, link models, attribute changes, random outcomes and lengths of the loading, and all sets of registered links", "why_tests_cant": "The report is accumulated over all intervals and vehicles of a loading; a test sees a few numbers of one network and cannot tell a vehicle counted twice from another one missed.", "anchors": ["src/multiclass.cpp: MNM_Cumulative_Emission_Multiclass::update", "src/multiclass.cpp: MNM_Cumulative_Emission_Multiclass::output", "src/multiclass.cpp: MNM_Dta_Multiclass::build_from_files", "src/dta.cpp: MNM_Dta::load_once", "macposts/_ext/mcdta.cpp: Mcdta::print_emission_stats"]}
{"id": "C158", "title": "Emission report of a loading with cars and trucks: totals", "statement": "In every interval the fuel, the pollutants and the miles of a class grow by what its vehicles on each registered link use, emit and drive at the speed of the link, electric vehicles driving without emitting; the report of a loading with positive lanes, lengths and speeds never divides by zero, no total is ever negative or shrinks, the miles of electric vehicles are not more than all miles, and per mile trucks emit more than cars.", "quantifier": "all networks, link models, attribute changes, states and lengths of the loading", "why_tests_cant": "The rates are piecewise in the speed, which takes any value, and the bounds have to hold for every state of every link in every interval.", "anchors": ["src/multiclass.cpp: MNM_Cumulative_Emission_Multiclass::update", "src/multiclass.cpp: MNM_Cumulative_Emission_Multiclass::calculate_fuel_rate_truck", "src/multiclass.cpp: MNM_Cumulative_Emission_Multiclass::calculate_NOX_rate_truck", "macposts/_ext/mcdta.cpp: Mcdta::print_emission_stats"]}
{"id": "C159", "title": "Driving links with bus stops keep order and vehicles", "statement": "On a driving link with bus stops (cell transmission or point queue) the cars reach the exit in the order in which they came onto the link, and so do the trucks and the buses of each route, although buses dwell at stops and other vehicles pass them; no vehicle is lost or doubled: arrivals are the vehicles waiting before the link and those that came onto it (in the order of arrival), those are the vehicles that reached the exit and those travelling, and those that reached the exit departed or wait there.", "quantifier": "every mixture of cars, trucks and buses, every set of stops on the link, every history of arrivals, departures, admissions and intervals, every random draw and every wish of the passengers", "why_tests_cant": "the ordering must survive any interleaving of dwelling buses, overtaking cars and random mixing at the exit; a test fixes one interleaving", "anchors": ["src/multimodal.cpp: MNM_Dlink_Ctm_Multimodal::evolve", "src/multimodal.cpp: MNM_Dlink_Ctm_Multimodal::move_veh_queue_in_cell", "src/multimodal.cpp: MNM_Dlink_Ctm_Multimodal::move_veh_queue_in_last_cell", "src/multimodal.cpp: MNM_Dlink_Ctm_Multimodal::clear_incoming_array", "src/multimodal.cpp: MNM_Dlink_Pq_Multimodal::evolve", "src/multimodal.cpp: MNM_Dlink_Pq_Multimodal::clear_incoming_array"]}
{"id": "C160", "title": "Every bus serves every stop of its route once", "statement": "On each trip over a driving link a bus is received and then released by every stop of its route on the link, exactly once each and in the order of the stops along the link, before it reaches the exit; the buses a stop keeps in its queue are at any time the buses of its route at its position, in order; and only the first of them dwells.", "quantifier": "every history, every number of buses and routes, every set of stops with no two stops of one route in one place", "why_tests_cant": "a bus may be held for any number of intervals, at any stop, behind any other vehicle, and come back any number of times", "anchors": ["src/multimodal.cpp: MNM_Busstop_Virtual::hold_bus", "src/multimodal.cpp: MNM_Busstop_Virtual::receive_bus", "src/multimodal.cpp: MNM_Busstop_Virtual::release_bus", "src/multimodal.cpp: MNM_Dlink_Ctm_Multimodal::move_veh_queue_in_cell", "src/multimodal.cpp: MNM_Dlink_Ctm_Multimodal::move_veh_queue_in_last_cell", "src/multimodal.cpp: MNM_Dlink_Pq_Multimodal::evolve"]}
{"id": "C161", "title": "Intervals of driving links with bus stops go through", "statement": "The consistency checks at bus stops (bus in the queue of the stop, counter of passed buses, intervals stopped) never fail: admitting vehicles always succeeds, an interval of a point queue always succeeds, and an interval of a cell transmission link ends with an exception only if a vehicle on it has no next link; below the jam densities and with enough small random draws it always ends normally.", "quantifier": "every reachable state of the link, every draw and wish of the passengers", "why_tests_cant": "the checks guard against combinations of queues, counters and dwelling buses that a handful of scenarios never reach, and the loop at the exit ends only when the draws allow it", "anchors": ["src/multimodal.cpp: MNM_Busstop_Virtual::hold_bus", "src/multimodal.cpp: MNM_Busstop_Virtual::release_bus", "src/multimodal.cpp: MNM_Dlink_Ctm_Multimodal::move_veh_queue_in_last_cell", "src/multimodal.cpp: MNM_Dlink_Ctm_Multimodal::evolve", "src/multimodal.cpp: MNM_Dlink_Pq_Multimodal::evolve"]}
{"id": "C162", "title": "Time on point-queue links with bus stops", "statement": "On a point-queue driving link with bus stops, the time a vehicle spends travelling is exactly the free flow time of the link plus the intervals in which a stop holds it: after e intervals with h of them held, a vehicle at position p is at position p + e - h, and it has reached the exit exactly when that is not below the free flow time. Stops deal only with buses of their own route, so cars, trucks and buses of other routes are never held.", "quantifier": "every history of arrivals, admissions, intervals and departures, any set of stops, any wishes of the passengers", "why_tests_cant": "each bus may be held at any of its stops for any number of intervals, between any other vehicles", "anchors": ["src/multimodal.cpp: MNM_Dlink_Pq_Multimodal::evolve", "src/multimodal.cpp: MNM_Dlink_Pq_Multimodal::clear_incoming_array", "src/multimodal.cpp: MNM_Busstop_Virtual::hold_bus", "src/multimodal.cpp: MNM_Busstop_Virtual::release_bus"]}
{"id": "C163", "title": "No vehicle crosses more than one cell in an interval", "statement": "In one loading interval of a cell transmission link with bus stops, a vehicle stays in its cell, moves to the next cell, or leaves the link from the last cell.", "quantifier": "every reachable state of the link, every draw and wish of the passengers", "why_tests_cant": "the speed limit of the model must hold for all fillings of the cells and all combinations of buses held at stops", "anchors": ["src/multimodal.cpp: MNM_Dlink_Ctm_Multimodal::evolve", "src/multimodal.cpp: MNM_Dlink_Ctm_Multimodal::move_veh_queue_in_cell", "src/multimodal.cpp: MNM_Dlink_Ctm_Multimodal::move_veh_queue_in_last_cell"]}
{"id": "C164", "title": "Without buses, driving links of multimodal networks are two-class links", "statement": "When no vehicle is a bus, admitting vehicles and an interval of a cell transmission or point-queue driving link of a multimodal network do to the vehicles exactly what they do on the two-class link with the same random draws, and fail exactly when those fail.", "quantifier": "every state of the link, every draw, any stops on the link", "why_tests_cant": "the two pieces of code are separate and must agree on all states", "anchors": ["src/multimodal.cpp: MNM_Dlink_Ctm_Multimodal::evolve", "src/multimodal.cpp: MNM_Dlink_Ctm_Multimodal::clear_incoming_array", "src/multimodal.cpp: MNM_Dlink_Pq_Multimodal::evolve", "src/multimodal.cpp: MNM_Dlink_Pq_Multimodal::clear_incoming_array", "src/multiclass.cpp: MNM_Dlink_Ctm_Multiclass::evolve", "src/multiclass.cpp: MNM_Dlink_Pq_Multiclass::evolve"]}
{"id": "C165", "title": "Bus stops are put where the file says", "statement": "Every bus stop of the file is put on its link in file order, in the cell (or interval of the free flow time) that contains its location; locations before or beyond the link go to the first or last one. The program ends with an error exactly if a stop has no route or two stops of one route share a cell.", "quantifier": "every list of stops and every link", "why_tests_cant": "the rounding at cell borders and the clamping must be right for every location and every cell length", "anchors": ["src/multimodal.cpp: MNM_IO_Multimodal::build_busstop_factory"]}
{"id": "C166", "title": "Flow of point-queue links with bus stops", "statement": "The flow a point-queue driving link of a multimodal network reports for a class is the number of vehicles of that class on it, in vehicles of flow.", "quantifier": "every history of the link", "why_tests_cant": "the volumes are kept separately from the queues and must agree with them after every history", "anchors": ["src/multimodal.cpp: MNM_Dlink_Pq_Multimodal::get_link_flow_car", "src/multimodal.cpp: MNM_Dlink_Pq_Multimodal::get_link_flow_truck", "src/multimodal.cpp: MNM_Dlink_Pq_Multimodal::clear_incoming_array"]}
{"id": "C167", "title": "Release of the vehicles of a multimodal loading", "statement": "In every release minute an origin makes, for each destination, as many cars, trucks and park-and-ride cars as the scaled demand of that minute, rounded up or down by the draw, for each bus route as many buses as the scaled demand rounded down, and nothing else. The vehicles get the next numbers, this origin and their destination, the start time and assignment interval, the capacity and waiting time of their kind and a place in the queue; only buses have a route, and they are never adaptive. The counters of each kind grow by exactly these vehicles. Each driver is adaptive with the share of the destination, or of the loading if the destination has none.", "quantifier": "every origin, every demand that is not negative, every share of adaptive drivers and all random draws", "why_tests_cant": "the sums over destinations, routes and kinds must be right for every demand and all draws", "anchors": ["src/multimodal.cpp: MNM_Origin_Multimodal::release_one_interval", "src/multimodal.cpp: MNM_Origin_Multimodal::release_one_interval_biclass", "src/multimodal.cpp: MNM_Veh_Factory_Multimodal::make_veh_multimodal"]}
{"id": "C168", "title": "Demand files of multimodal loadings are carried out", "statement": "The vehicles of an interval in the demand files are released in the minutes of that interval: the demand of its minutes adds up to the demand of the file, and all whole buses leave.", "quantifier": "every demand, scale and way of splitting demand, any length of the intervals", "why_tests_cant": "whether demand gets lost depends on every combination of demand, scale and length of interval", "anchors": ["src/multimodal.cpp: MNM_IO_Multimodal::build_vehicle_demand_multimodal", "src/multimodal.cpp: MNM_IO_Multimodal::build_pnr_demand", "src/multimodal.cpp: MNM_Origin_Multimodal::add_dest_demand_bus", "src/multimodal.cpp: MNM_Origin_Multimodal::add_dest_demand_pnr_car"]}
{"id": "C169", "title": "Counts and hours in the travel statistics of multimodal loadings", "statement": "At every moment the numbers of cars, park-and-ride cars, trucks and buses made, finished and under way are right, and the travel statistics report the numbers made so far and the hours all vehicles of a kind have spent, until they finished or until now.", "quantifier": "every history of vehicles being made and finishing, every moment", "why_tests_cant": "the totals are built up over histories of any length", "anchors": ["src/multimodal.cpp: MNM_Veh_Factory_Multimodal::make_veh_multimodal", "src/multimodal.cpp: MNM_Veh_Factory_Multimodal::remove_finished_veh", "macposts/_ext/mmdta.cpp: Mmdta::get_travel_stats"]}
{"id": "C170", "title": "Static vehicles of a multimodal loading travel their paths", "statement": "Every vehicle released is routed by exactly one of the fixed routings, the one of its kind. A static car, truck, bus or park-and-ride car travels exactly the links of its path in order and leaves the network at its end, at its destination or its parking lot, without any failure, if the path leads there, does not pass there before, and no link of it follows itself. Adaptive vehicles get a nominal path and are otherwise left to adaptive routing.", "quantifier": "every path, every history of routing, nodes and links", "why_tests_cant": "vehicles can wait at any node and be routed any number of times in between", "anchors": ["src/multimodal.cpp: MNM_Routing_Bus::update_routing", "src/multimodal.cpp: MNM_Routing_PnR_Fixed::update_routing", "src/multimodal.cpp: MNM_Routing_Multimodal_Hybrid::update_routing", "src/routing.cpp: MNM_Routing_Biclass_Fixed::update_routing"]}
{"id": "C171", "title": "Adaptive park-and-ride cars reach a parking lot", "statement": "An adaptive park-and-ride car drives to a parking lot that is connected to its destination.", "quantifier": "every network and all random draws", "why_tests_cant": "the parking lot is drawn at random at every node", "anchors": ["src/multimodal.cpp: MNM_Routing_Multimodal_Adaptive::find_mid_destination_for_pnr", "src/multimodal.cpp: MNM_Routing_Multimodal_Adaptive::update_routing_vehicle"]}
{"id": "C172", "title": "A copy of the running network holds the same traffic", "statement": "A network copied in a real-time session holds, on each link and in the same order, a vehicle for each vehicle of the original, with the same release time, kind, next link, origin, destination, remaining way and path, and moves on as the original would.", "quantifier": "all networks of links of any kind and all vehicles on them", "why_tests_cant": "Copies are made while vehicles are in cells, queues and at nodes; only tests with every link kind in every state would meet all cases.", "anchors": ["src/realtime_dta.cpp: make_screenshot", "src/realtime_dta.h: copy_veh"]}
{"id": "C173", "title": "Portions of paths stay portions in a real-time session", "statement": "After the start of running and any sequence of estimation, optimisation and prediction steps, the portions of the paths of every pair of nodes are not negative and sum to one; a step takes portion from paths with a positive gradient and gives it to the others.", "quantifier": "all path tables, gradients, steps of at least zero and sequences of calls", "why_tests_cant": "A sum of one must survive every sequence of updates, not those of one session.", "anchors": ["src/realtime_dta.cpp: update_path_p", "src/realtime_dta.cpp: init_running", "src/path.cpp: normalize_path_table_p"]}
{"id": "C174", "title": "The compliance ratio of a sign follows what drivers do", "statement": "The compliance ratio of a message sign lies between zero and one and moves with the share of drivers who follow the sign; the prediction thins the paths that are against the sign accordingly.", "quantifier": "all signs, path tables, demands and sequences of calls", "why_tests_cant": "The ratio is a running average over the history of a session.", "anchors": ["src/realtime_dta.cpp: update_compliance_ratio", "src/realtime_dta.cpp: predict_next"]}
{"id": "C175", "title": "A message sign proposes the alternative with the largest gain", "statement": "Each alternative of a message sign knows exactly the paths that use it, and the detour is the first alternative for which the best portions carry most more traffic than the real ones; without alternatives the search raises.", "quantifier": "all graphs, path tables, portions and demands", "why_tests_cant": "The choice is an argmax over hash-map entries and paths of any number.", "anchors": ["src/vms.cpp: hook_path", "src/vms.cpp: generate_detour_link", "src/vms.cpp: hook_link", "src/od.cpp: get_demand_bynode"]}
{"id": "C176", "title": "Averaged travel times are means of the samples of one loading", "statement": "The averaged travel time of a link in a gradient is the mean of its travel times at the sample points of that loading.", "quantifier": "all numbers of intervals and sample points, all travel times and all numbers of gradients", "why_tests_cant": "Depends on divisibility of two configured numbers and on how many gradients came before.", "anchors": ["src/realtime_dta.cpp: get_lsqr_gradient", "src/realtime_dta.cpp: get_dso_gradient"]}
{"id": "C177", "title": "Measured link travel times are smoothed times of vehicles", "statement": "In a real-time loading the travel time of a link is the time at free flow halved with the time of each vehicle from the entrance of the link to the entrance of its next link, in the order of arrival.", "quantifier": "all runs, vehicles and links", "why_tests_cant": "A history of all vehicles of a run determines each value.", "anchors": ["src/marginal_cost.cpp: MNM_Link_Tt::update_tt"]}
{"id": "C178", "title": "Optimisation moves traffic to better paths", "statement": "Optimising the portions of a pair of nodes gives portion to paths with lower marginal cost; estimation moves portion away from paths that are slower than measured.", "quantifier": "all demands, travel times, flows, steps and sets of paths", "why_tests_cant": "Whether any portion moves depends on the signs of all gradients.", "anchors": ["src/realtime_dta.cpp: optimize_next", "src/realtime_dta.cpp: get_dso_gradient", "src/marginal_cost.cpp: MNM_Link_Cost"]}
{"id": "C179", "title": "A real-time session can be iterated", "statement": "Any number of iterations with any number of estimation and optimisation rounds uses the path table of the session while it exists.", "quantifier": "all numbers of rounds and of iterations", "why_tests_cant": "Use after deletion is not visible in the results of a run that happens to work.", "anchors": ["src/realtime_dta.cpp: one_iteration", "src/routing.cpp: MNM_Routing_Fixed"]}
{"id": "C180", "title": "The prediction loads the demand intervals that follow", "statement": "The prediction of iteration k releases demand at the last loading interval of each assignment interval, and its demand intervals are those after k, going round at the last one.", "quantifier": "all lengths of prediction, frequencies, numbers of demand intervals and iterations", "why_tests_cant": "A schedule for unbounded numbers of intervals.", "anchors": ["src/realtime_dta.cpp: predict_next", "src/realtime_dta.cpp: one_iteration"]}
{"id": "C181", "title": "Texts of signs say what the traffic asks for", "statement": "The file of texts has one line for each sign in order: an exit for slow roads, the minutes of travel time rounded down if the road is above its free-flow time, a warning otherwise; signs without a detour raise.", "quantifier": "all signs and link states", "why_tests_cant": "A decision table over real numbers with boundaries.", "anchors": ["src/vms.cpp: generate_vms_instructions"]}
{"id": "C182", "title": "Work zones close exactly the links listed", "statement": "Closing links takes exactly those links out of the links of their nodes and of the network, in order, and lists them as closed; a link closed twice or unknown raises.", "quantifier": "all networks and lists of links", "why_tests_cant": "Any set of links at any nodes.", "anchors": ["src/workzone.cpp: add_workzone_link", "src/workzone.cpp: init_workzone"]}
{"id": "C183", "title": "Assignment ratios of passengers count the passengers", "statement": "After a loading, the assignment-ratio records of bus links and walking links list, link by link and period by period, each registered path and departure interval of which passengers entered the link in the period, once, with the flow of these passengers; installing the trees does not change the loading.", "quantifier": "all networks, demands, schedules of buses and random choices, links, periods and registered paths", "why_tests_cant": "The records must agree with every history of passengers through stops, buses, parking lots and walks.", "anchors": ["src/multimodal.cpp: add_dar_records_passenger", "macposts/_ext/mmdta.cpp: get_passenger_dar_matrix_bustransit", "macposts/_ext/mmdta.cpp: get_passenger_dar_matrix_pnr", "src/multimodal.cpp: MNM_Transit_Link::install_cumulative_curve_tree"]}
{"id": "C184", "title": "Trees of curves can be installed again", "statement": "Trees can be installed on links any number of times at any moment: they then hold exactly the flows since the last installation, no freed memory is used, and destroying the links frees every tree once.", "quantifier": "all kinds of links and all sequences of installations and flows", "why_tests_cant": "Memory errors depend on the history of calls.", "anchors": ["src/dlink.cpp: install_cumulative_curve_tree", "src/multiclass.cpp: install_cumulative_curve_tree_multiclass", "src/multimodal.cpp: MNM_Bus_Link::install_cumulative_curve_tree", "macposts/_ext/mmdta.cpp: install_cc_tree"]}
{"id": "C185", "title": "Portions of the driving links of a bus link", "statement": "For a bus link that leads along driving links from the link of its first stop to the link of its second one, the portion kept for each driving link is the part of it that lies between the two stops, the portions lie between 0 and 1 and add up, by length, to the distance between the stops; the table of overlapped links has one row per driving link of each registered bus link; the travel time of a bus link is never shorter than its distance at the highest speed on its links. (False when the ride comes back to its first link.)", "quantifier": "every bus link, every list of driving links, every place of the stops, all travel times of the driving links", "why_tests_cant": "A test sees a few bus links; a route that comes back to its first link is rarely among them.", "anchors": ["src/multimodal.cpp: MNM_Bus_Link::get_overlapped_driving_link_length_portion", "src/multimodal.cpp: MNM_Bus_Link::get_link_tt", "macposts/_ext/mmdta.cpp: get_links_overlapped_bus_driving"]}
{"id": "C186", "title": "Check of the paths of buses", "statement": "The check of the table of bus paths reports a path consistent if and only if its driving links are those of its bus links put together and no bus link passes another stop of its route between its own two stops; it leaves in the table the links put together; a path that is cut by its bus links at its stops keeps its links; a second check finds the links left by the first. (A stop passed when the ride comes back to its first link is not seen.)", "quantifier": "every network with stops placed as the files say, every table of paths, both kinds of driving links", "why_tests_cant": "The result depends on the order of stops and links along the whole route; tests use short consistent routes.", "anchors": ["src/multimodal.cpp: MNM_Dta_Multimodal::check_bus_path_table"]}
{"id": "C187", "title": "Waiting time at a bus stop by snapshot", "statement": "The waiting time at a bus stop read from a snapshot of the network is the ride from the nearest stop upstream that the next bus has reached; if it has reached none, the ride from the first stop of the route and the minutes until the release of that bus; and twice the time of assignment if no bus is to come. (False: after the last minute with demand the demand is read out of bounds, and on a circular route the search does not end.)", "quantifier": "every line of stops, all numbers of buses that have come, all times and demands", "why_tests_cant": "The cases depend on where every bus is at the time of the question; a test fixes a few.", "anchors": ["src/multimodal.cpp: MNM_Busstop_Virtual::get_waiting_time_snapshot"]}
{"id": "C188", "title": "Registered bus and walking links on registered paths", "statement": "For every registered driving link the answer says whether it is on some registered driving path; for every registered bus or walking link it says whether it is on some registered bus transit path or on the transit part of some registered park-and-ride path. (False when a driving link on a park-and-ride path has the number of the bus or walking link.)", "quantifier": "all lists of registered links and paths", "why_tests_cant": "The answer is read off all pairs of links and paths; networks whose links share numbers are not among the tests.", "anchors": ["macposts/_ext/mmdta.cpp: check_registered_links_in_registered_paths_bus", "macposts/_ext/mmdta.cpp: check_registered_links_in_registered_paths_walking", "macposts/_ext/mmdta.cpp: check_registered_links_in_registered_paths_driving", "src/multimodal.cpp: MNM_PnR_Path::is_link_in"]}
{"id": "C189", "title": "Paths generated for registered bus and walking links", "statement": "Generating paths for registered bus and walking links changes nothing and returns 0 if all of them are on paths; otherwise it returns 1, adds paths over links that were on none, each to the path set of a pair with demand, and its flags say which links are on paths. (False: the ends of the links are looked up in the driving network, so the call throws whenever the first link on no path has no driving link of its number, and with such a driving link the new path need not be connected; a park-and-ride path is freed before it is used; the flags of bus links miss paths made for walking links.)", "quantifier": "every network, all registered links and paths, every order of origins and destinations", "why_tests_cant": "The defects show only on networks where some link is on no path, and then depend on numbers of links in two networks.", "anchors": ["macposts/_ext/mmdta.cpp: generate_paths_to_cover_registered_links_bus_walking"]}
{"id": "C190", "title": "Car parks of destinations and the check of the transit network", "statement": "When the multimodal model is set up, the car parks recorded for a destination are, in order, exactly those from which the destination can be reached by bus and on foot; and the check of transit connectivity succeeds exactly if every pair of origin and destination with bus or park-and-ride demand can be served.", "quantifier": "all driving and transit networks, origins, destinations, car parks and demands by mode", "why_tests_cant": "The check depends on reachability in two graphs for every pair; tests fix a network.", "anchors": ["src/multimodal.cpp: MNM_Dta_Multimodal::find_connected_pnr_parkinglot_for_destination", "src/multimodal.cpp: MNM_Dta_Multimodal::check_bus_transit_connectivity"]}
{"id": "C191", "title": "Connectivity of pairs by mode", "statement": "The connectivity by mode that multimodal user equilibrium works with has an entry for exactly the pairs with passenger demand; in it a configured mode is marked exactly if there is a way by that mode (by car, by transit, or by car to a car park and on by transit); and if a pair with demand can be served by no configured mode, an exception is raised.", "quantifier": "all driving and transit networks, origins, destinations, car parks, configured modes and demands", "why_tests_cant": "The flags depend on reachability through every car park; tests see a few pairs.", "anchors": ["src/multimodal.cpp: MNM_MM_Due::check_od_mode_connectivity"]}
{"id": "C192", "title": "The file of the connectivity by mode", "statement": "The file of the connectivity by mode that one run writes gives the next run the same connectivity, for any configured modes, and it is only used for the network and demand it was made for.", "quantifier": "all maps of connectivity, configured modes, numbers of pairs and orders of iteration", "why_tests_cant": "Every combination of modes and pairs must survive writing and reading.", "anchors": ["src/multimodal.cpp: MNM_MM_Due::save_od_mode_connectivity", "src/multimodal.cpp: MNM_MM_Due::load_od_mode_connectivity", "src/multimodal.cpp: MNM_MM_Due::check_od_mode_connectivity"]}
{"id": "C193", "title": "The table of the connectivity by mode", "statement": "get_od_mode_connectivity of the Python interface returns one row for each pair: origin node, destination node, and 0 or 1 for driving, transit and park-and-ride.", "quantifier": "all maps of connectivity, orders of iteration and configured numbers of pairs", "why_tests_cant": "Rows depend on how pairs are grouped by origin; a test with one destination per origin does not see it.", "anchors": ["macposts/_ext/mmdta.cpp: Mmdta::get_od_mode_connectivity"]}
{"id": "C194", "title": "Initial demand files by mode", "statement": "generate_init_mode_demand_file writes for each configured mode one file with exactly one line for each pair with demand that the mode can serve, with origin, destination and a demand of 1 for every interval (for driving, for every interval of cars and of trucks), and no file for other modes.", "quantifier": "all networks, maps of connectivity, configured modes, numbers of intervals and IDs", "why_tests_cant": "The lines depend on reachability of every pair by every mode.", "anchors": ["src/multimodal.cpp: MNM::generate_init_mode_demand_file"]}
{"id": "C195", "title": "Toll files", "statement": "For a toll file with a first line and one row `link toll` per tolled link, after reading every link has the toll of its last row and every other link keeps its toll, for one and for two vehicle classes; a row that is malformed or names a link that does not exist, and a file with fewer rows than configured, raise an exception.", "quantifier": "all first lines, rows, links, tolls before and configured numbers of tolled links", "why_tests_cant": "Tolls must be right for every file, including files without a final newline or without first line.", "anchors": ["src/io.cpp: MNM_IO::build_link_toll", "src/multiclass.cpp: MNM_IO_Multiclass::build_link_toll_multiclass"]}
{"id": "C196", "title": "Files of vehicle label ratios", "statement": "For a file with a first line and one row per origin with the share of each label, every origin gets the shares of its row, and nothing else.", "quantifier": "all files, numbers of labels, origins and configured numbers of rows", "why_tests_cant": "Rows may have the wrong number of words or be missing in any file.", "anchors": ["src/io.cpp: MNM_IO::read_origin_vehicle_label_ratio", "src/multiclass.cpp: MNM_IO_Multiclass::read_origin_car_label_ratio", "src/multiclass.cpp: MNM_IO_Multiclass::read_origin_truck_label_ratio"]}
{"id": "C197", "title": "Files of tracked pairs and intervals", "statement": "The pairs of origins and destinations and the intervals listed in the two files (after a first line) are exactly those that are tracked, in order; a malformed row raises an exception.", "quantifier": "all files", "why_tests_cant": "Files are arbitrary text.", "anchors": ["src/io.cpp: MNM_IO::read_vehicle_tracking_setting"]}
{"id": "C198", "title": "Files of time-dependent adaptive ratios", "statement": "For a file with a first line and one row per pair with a ratio per interval, each pair has the ratios of its first row; with two classes, in every minute of an interval each class has the ratio of this interval.", "quantifier": "all files, numbers and lengths of intervals, origins and destinations", "why_tests_cant": "The reader copies a fixed number of entries per interval, which only some lengths of the interval show.", "anchors": ["src/io.cpp: MNM_IO::build_td_adaptive_ratio", "src/multiclass.cpp: MNM_IO_Multiclass::build_td_adaptive_ratio", "src/multiclass.cpp: MNM_Origin_Multiclass::add_dest_adaptive_ratio_multiclass"]}
{"id": "C199", "title": "Files of time-dependent link attributes", "statement": "For a file with a first line and one row per interval and link, the attributes of a link in an interval are those of the last row for both, in metres, seconds and vehicles and with the toll of the row; a malformed row raises an exception.", "quantifier": "all files", "why_tests_cant": "Every column of every row must end up in the right place and unit.", "anchors": ["src/multiclass.cpp: MNM_IO_Multiclass::build_link_td_attribute", "src/io.cpp: MNM_IO::build_link_td_attribute"]}
{"id": "C200", "title": "Files of origins and destinations", "statement": "Every row of the file of origins and destinations puts the origin or destination of this number at the node of the row, and that node releases or takes vehicles for it; a malformed row, a number used twice or a node that cannot be an origin (destination) raises an exception.", "quantifier": "all files, configured numbers and nodes", "why_tests_cant": "Each kind of wrong file needs its own test, and files are arbitrary.", "anchors": ["src/io.cpp: MNM_IO::build_od_factory"]}
{"id": "C201", "title": "Node and link files of two-class loadings", "statement": "Every row of the node file makes a node of this number, type and conversion factor, and every row of the link file makes a link of this number, kind and properties of both classes, converted from miles and hours to metres and seconds.", "quantifier": "all node and link files", "why_tests_cant": "Every column of every row must end up in the right place and unit.", "anchors": ["src/multiclass.cpp: MNM_IO_Multiclass::build_node_factory_multiclass", "src/multiclass.cpp: MNM_IO_Multiclass::build_link_factory_multiclass"]}
{"id": "C202", "title": "Demand files of two-class loadings", "statement": "For a demand file with one row per pair, holding the demand of cars for each interval and then that of trucks, every pair has in each interval the demand of its row, at the minutes the configuration asks for.", "quantifier": "all files, numbers and lengths of intervals", "why_tests_cant": "The reader copies fifteen minutes per interval whatever the length of the interval is.", "anchors": ["src/multiclass.cpp: MNM_IO_Multiclass::build_demand_multiclass", "src/multiclass.cpp: MNM_Origin_Multiclass::add_dest_demand_multiclass"]}
{"id": "C203", "title": "Recorded volumes and travel times of cars and trucks are means over the record interval", "statement": "In a two-class loading with recording switched on, there are files of volumes and of travel times for the link, for its cars and for its trucks.  The loading files have one row per interval with the value of every link; the record files have one row per record interval with the mean of the values of its loading intervals.  The maps that adaptive routing reads hold the same means, and the recorded volume of a link is the sum of the recorded volumes of its classes.", "quantifier": "all record intervals, numbers of loading intervals, link sets and answers of links", "why_tests_cant": "the mean is accumulated over the intervals in six maps that are reset at different moments; a dropped reset or a wrong divisor shows only for some interval lengths", "anchors": ["src/multiclass.cpp: MNM_Statistics_Lrn_Multiclass::init_record", "src/multiclass.cpp: MNM_Statistics_Lrn_Multiclass::update_record", "src/multiclass.cpp: MNM_Statistics_Lrn_Multiclass::record_loading_interval_condition", "src/multiclass.cpp: MNM_Statistics_Lrn_Multiclass::record_record_interval_condition"]}
{"id": "C204", "title": "Origins and destinations of real-time loadings are attached to the nodes of their rows in every copy of the network", "statement": "A real-time loading reads the origins and destinations from a file once and attaches them to the nodes of each copy of the network by reading the file again.  After each reading every origin and destination of the file is at the node of its row, and that node releases (receives) for it.", "quantifier": "all place files, networks and earlier attachments", "why_tests_cant": "the two readings are separate functions that must agree on every row of every file", "anchors": ["src/io.cpp: MNM_IO::build_od_factory", "src/io.cpp: MNM_IO::hook_up_od_node", "src/realtime_dta.cpp: MNM_Realtime_Dta::initialize"]}
{"id": "C205", "title": "Message signs stand where their file says", "statement": "From a file of message signs, each sign stands on the link of its row, shows no detour, is followed by everyone until told otherwise and offers the links that leave the node in which its link starts; a row that has not two words or names a link that does not exist is an error.", "quantifier": "all sign files and graphs", "why_tests_cant": "holds for all files and graphs", "anchors": ["src/io.cpp: MNM_IO::build_vms_facotory", "src/vms.cpp: MNM_Vms_Factory::make_link_vms", "src/vms.cpp: MNM_Link_Vms::hook_link"]}
{"id": "C206", "title": "The best new passenger path of the multimodal equilibrium", "statement": "For an origin-destination pair, the search for a new passenger path looks at the path that the time-dependent tree of each usable mode offers for each departure interval (and for park and ride each connected parking lot) and returns the one of least disutility: no offer is cheaper; of equal offers driving comes before transit before park and ride, and an earlier departure before a later one; there is no result only if no offer has a finite disutility. Every other path it made is freed exactly once, the returned one is alive, and nothing older is touched.", "quantifier": "every pair of networks, trees, travel times, cost and demand functions, set of usable modes, set of departure intervals and prior state of memory", "why_tests_cant": "Which departure and mode wins depends on the costs of all of them, and a double free shows only for some sequences of costs, often without a crash.", "anchors": ["src/multimodal.cpp: MNM_MM_Due::get_best_path", "src/multimodal.cpp: MNM_MM_Due::get_best_driving_path", "src/multimodal.cpp: MNM_MM_Due::get_best_bus_path", "src/multimodal.cpp: MNM_MM_Due::get_best_pnr_path", "src/multimodal.cpp: MNM_MM_Due::get_best_path_for_single_interval", "src/multimodal.cpp: MNM_Passenger_Path_PnR::~MNM_Passenger_Path_PnR"]}
{"id": "C207", "title": "The queries about passengers underway and about queues of a multimodal loading", "statement": "After any number of loading intervals get_enroute_and_queue_passenger_stats_agg has one row for each interval: the passengers who have set out and not arrived by its end, the passengers who wait at the end of a walking link when its buses begin to move, and their difference, in units of demand; and get_queue_veh_each_link and get_queue_passenger_each_link say how many wait at the end of each link asked for in each interval asked for.", "quantifier": "all well-formed multimodal networks, random choices and numbers of intervals; all arrays of links and intervals and all contents of memory", "why_tests_cant": "the rows have to agree with the whole history of every passenger; a read outside of an array often goes unnoticed", "anchors": ["macposts/_ext/mmdta.cpp: Mmdta::get_enroute_and_queue_passenger_stats_agg", "macposts/_ext/mmdta.cpp: Mmdta::get_queue_veh_each_link", "macposts/_ext/mmdta.cpp: Mmdta::get_queue_passenger_each_link", "src/multimodal.cpp: MNM_Dta_Multimodal::record_queue_passengers", "src/multimodal.cpp: MNM_Dta_Multimodal::record_enroute_passengers"]}
{"id": "C208", "title": "Transit and park-and-ride path tables survive saving and loading", "statement": "A table of transit paths, or of park-and-ride paths, that is written to a file and read back with the number of its paths has for every pair of nodes the same paths in the same order: the same links and nodes, parking lot and destination in the middle; the paths are numbered anew in the order of the file. Rows with links that do not exist are errors.", "quantifier": "all driving and transit networks and all tables of paths", "why_tests_cant": "the reader finds the end of the driving part by a number in the row and finds links again from nodes; this has to work for all paths of all networks", "anchors": ["src/multimodal.cpp: MNM::save_bustransit_path_table", "src/multimodal.cpp: MNM::save_pnr_path_table", "src/multimodal.cpp: MNM_IO_Multimodal::load_bustransit_path_table", "src/multimodal.cpp: MNM_IO_Multimodal::load_pnr_path_table"]}
{"id": "C209", "title": "The files of bus paths and of bus stops define the bus routes", "statement": "Loading a file with the paths of bus routes and a file with their stops, rows in the same order, each route in one row: every route gets exactly the nodes, the links between them and the stops of its rows, numbered by position, and no other routes exist. When numbers of buses are asked for, each virtual stop learns the ends and the rounded number of buses of the last route that serves it. The numbers in the file of stops are never compared with those in the file of paths.", "quantifier": "all networks built by the API, all lists of routes without parallel links, all stops and demands", "why_tests_cant": "The reader walks two files in step and keeps state from row to row; what every pair of files gives cannot be enumerated.", "anchors": ["src/multimodal.cpp:MNM_IO_Multimodal::load_bus_path_table"]}
{"id": "C210", "title": "The file of charging stations defines the stations", "statement": "Building a network from a file of charging stations adds exactly one station per row, with the number, slots and price of the row and the whole intervals of its charging and waiting times; existing nodes are unchanged. A row with a wrong number of words or with the number of an existing node is an error. Without the file, or when the configuration announces no stations, nothing changes.", "quantifier": "all networks, all files and all rows of stations", "why_tests_cant": "The reader parses text and refuses some rows; what every file gives cannot be enumerated.", "anchors": ["src/ev_traffic.cpp:MNM_IO_EV::add_charging_station_node", "src/ev_traffic.cpp:MNM_Node_Factory_EV::make_charging_station"]}
{"id": "C211", "title": "The file of candidate stations defines the candidates of every pair", "statement": "The candidates of an origin-destination pair are the stations its rows name, each once, in order of first mention; a saved table of candidates is read back as it was; without a file or without rows every pair has every station. Rows that name an unknown origin, destination or node are errors.", "quantifier": "all networks, all tables of candidates, all files", "why_tests_cant": "Rows of the same pair are merged and repeated stations dropped, over any number of rows and pairs.", "anchors": ["src/ev_traffic.cpp:MNM_IO_EV::load_candidate_poi_table", "src/ev_traffic.cpp:MNM_IO_EV::save_candidate_poi_table", "src/ev_traffic.cpp:MNM_Routing_Adaptive_With_POIs::construct_full_od_candidate_poi_table"]}
{"id": "C212", "title": "The files of tours define the delivery tours", "statement": "Building delivery traffic from a file of trips and a file of demands, rows in the same order: there is exactly one tour per row, in the order of the rows, that belongs to the origin of its first trip and has the trips and the demand of its rows. Whatever is read without error has trips between existing origins and destinations only and a demand for each interval. Without one of the files there are no tours.", "quantifier": "all networks, all files, all rows of tours and demands", "why_tests_cant": "Two files are parsed in step; what every pair of files gives cannot be enumerated.", "anchors": ["src/delivery_traffic.cpp:MNM_IO_Delivery::build_demand_multi_OD_seq", "src/delivery_traffic.cpp:MNM_Origin_Delivery::add_multi_OD_seq_demand"]}
{"id": "C213", "title": "The origin and destination files of electrified and delivery traffic define what they list", "statement": "Loading the file of origins and destinations of an electrified or delivery scenario defines exactly the listed origins and destinations, each hooked to its node, with the listed share of roadside charging and a pickup waiting time that differs from the listed seconds, in intervals, by less than one interval (and is exact when the seconds are whole intervals). Rows of origins with too many words should be reported; the code drops them. Loading a file twice should give the same waiting times; rounding is random, so it need not.", "quantifier": "every file with any number of origins and destinations, any headers, any optional columns, any interval length, any sequence of random draws", "why_tests_cant": "the rounding is random and the files are unbounded; a test sees one draw", "anchors": ["src/ev_traffic.cpp: MNM_IO_EV::build_od_factory_ev", "src/delivery_traffic.cpp: MNM_IO_Delivery::build_od_factory_delivery", "src/ults.cpp: MNM_Ults::round"]}
{"id": "C214", "title": "Numbers written to files are read back up to half a millionth", "statement": "Every number that the program writes to a file is one word and is read back successfully as a number that differs by at most 0.0000005; numbers with at most six decimals are read back exactly. (Smaller flows are not kept apart: anything below 0.0000005 is read back as zero.)", "quantifier": "every number, of either sign and any size", "why_tests_cant": "rounding and digit printing must be right for every value; tests try a few", "anchors": ["src/path.cpp: MNM_Path::buffer_to_string", "src/io.cpp: MNM_IO::load_path_table", "src/dlink.cpp: MNM_Cumulative_Curve::to_string"]}
{"id": "C215", "title": "Path tables with flows survive saving and loading", "statement": "Saving a path table with the flows of its paths and loading both files gives each path back with its nodes, links and flows (up to half a millionth per flow, exact with at most six decimals), whether a path has flows or not. A missing file of flows should be reported, and comments and blank lines in it skipped as in the file of paths; the code does neither.", "quantifier": "every graph, every table of walks, any number of paths and of flows per path", "why_tests_cant": "two unbounded files must stay in step, row by row; tests use one small table", "anchors": ["src/path.cpp: MNM::save_path_table, MNM_Path::buffer_to_string", "src/io.cpp: MNM_IO::load_path_table"]}
{"id": "C216", "title": "Charging stations save what happened at them", "statement": "After a loading a charging station saves a header and one line per interval, from zero to the last one in ascending order, with the interval and the estimated wait in seconds at that time; and a header and one line per record of its curve of charged vehicles, in ascending order, with the time and the cumulative number up to half a millionth. Both files can be read back cell by cell.", "quantifier": "every schedule of arrivals, any number of intervals, any order in which the record is kept in memory", "why_tests_cant": "the record is a hash map: its order is not the order of time; a test sees one order and few intervals", "anchors": ["src/ev_traffic.cpp: MNM_Charging_Station::save_waiting_time_record, MNM_Charging_Station::save_cc, MNM_IO_EV::save_charging_station_record", "src/dlink.cpp: MNM_Cumulative_Curve::to_string"]}
{"id": "C217", "title": "The check of the input files answers whether the scenario is consistent", "statement": "Checking the input files of a scenario ends, and answers true exactly if the numbers of nodes, links, origins and destinations are those of the configuration, links leave but do not enter the nodes of origins and enter but do not leave the nodes of destinations, and there is a way from every origin to every destination.", "quantifier": "every network, every set of origins and destinations and every order in which they are kept, every configuration", "why_tests_cant": "consistency quantifies over all pairs of places and all ways between them; the shortest path trees are reused from one destination to the next", "anchors": ["src/dta.cpp: MNM_Dta::is_ok, MNM_Dta::check_origin_destination_connectivity"]}
{"id": "C218", "title": "Nodes and links know each other", "statement": "After the network files are read, every node knows exactly the links that leave it and the links that enter it, each once, and every link knows the node it leaves and the node it enters, as in the graph file; origins know only leaving and destinations only entering links. If a node or link of the graph file is missing in the other files, or a link at a charging station is not a point queue, this ends with an exception.", "quantifier": "every network, every set of files, every class of node", "why_tests_cant": "a link that is listed twice or at the wrong node moves vehicles twice or never; a test sees few networks", "anchors": ["src/dta.cpp: MNM_Dta::hook_up_node_and_link", "src/realtime_dta.cpp: MNM_Dta_Screenshot::hook_up_node_and_link", "src/dnode.cpp: MNM_DMOND::add_out_link, MNM_DMDND::add_in_link, MNM_Dnode_Inout::add_out_link, MNM_Dnode_Inout::add_in_link", "src/ev_traffic.cpp: MNM_Charging_Station::add_in_link, MNM_Charging_Station::add_out_link"]}
{"id": "C219", "title": "The costs of paths are saved beside the table of paths", "statement": "Saving a path table with costs writes three files with one line for each path, in the same order: its nodes, its travel times and its disutilities. The words of a line are the numbers one for one, travel times and disutilities up to half a millionth.", "quantifier": "every table of paths, any number of intervals, every value", "why_tests_cant": "the files only fit together line by line; a test sees few paths and round numbers", "anchors": ["src/path.cpp: MNM::save_path_table, MNM_Path::time_vec_to_string, MNM_Path::disutility_vec_to_string, MNM_Path::node_vec_to_string"]}
{"id": "C220", "title": "The check of a multimodal scenario answers whether the transit network is consistent", "statement": "Checking the input files of a multimodal scenario answers true exactly if the driving network, the connectivity and the bus paths pass their checks, the numbers of stops, links, origins and destinations are those of the configuration, origins with bus demand are left but not entered and have walking links, destinations reached on foot are entered but not left, and every bus stop is on a driving link, is entered and left, and has all its parts.", "quantifier": "every transit network and configuration, any order of the objects", "why_tests_cant": "the answer combines conditions on every object; a test sees few inconsistent files", "anchors": ["src/multimodal.cpp: MNM_Dta_Multimodal::is_ok"]}
{"id": "C221", "title": "Files of numbers are read in full", "statement": "A file of link speeds, of integers, of rows of decimal numbers or of work zones, with the number of its rows in the first line, is read into exactly those rows, in their order and after what was there; whatever follows the announced rows is ignored; a link named twice in a file of speeds, or which already had a speed, keeps the first value; a row of speeds without exactly two words, or of work zones with more than one, is rejected; a missing file is an error.", "quantifier": "all numbers of rows, all values, all earlier contents and all trailing text", "why_tests_cant": "Tests read one file; the claim ranges over all files and all earlier contents.", "anchors": ["src/io.cpp: MNM_IO::read_int_float", "src/io.cpp: MNM_IO::read_int", "src/io.cpp: MNM_IO::read_float", "src/io.cpp: MNM_IO::build_workzone_list"]}
{"id": "C222", "title": "A random origin-destination pair has demand", "statement": "Asking for a random pair of an origin and a destination always returns a pair; the pair has demand; every pair with demand can come up.", "quantifier": "all origins with their demand, all orders of the maps and all sequences of random numbers", "why_tests_cant": "The outcome depends on an unbounded sequence of random numbers; tests see a few of them.", "anchors": ["src/factory.cpp: MNM_OD_Factory::get_random_od_pair", "src/multiclass.cpp: MNM_OD_Factory_Multiclass::get_random_od_pair", "src/multimodal.cpp: MNM_OD_Factory_Multimodal::get_random_od_pair", "src/multimodal.cpp: MNM_OD_Factory_Multimodal::get_random_od_pair_bustransit", "src/multimodal.cpp: MNM_OD_Factory_Multimodal::get_random_od_pair_pnr"]}
{"id": "C223", "title": "The file of cumulative curves has every record once, in order", "statement": "Writing the cumulative curves of the links to a file succeeds; for every link, the curve of arrivals comes before that of departures; every curve has one line for each of its records, ascending in time; the first line of a curve names the link and the kind of curve; links without curves are left out.", "quantifier": "all links, all curves with at least one record (as installed curves have) at whole times, and all orders in which the records are kept", "why_tests_cant": "Tests write a few curves; the claim ranges over all curves and all orders of their records.", "anchors": ["src/io.cpp: MNM_IO::dump_cumulative_curve", "src/dlink.cpp: MNM_Cumulative_Curve::to_string"]}

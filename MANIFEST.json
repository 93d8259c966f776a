{
 "claims": [
  {
   "property": "C01",
   "status": "proved",
   "theorems": [
    "Verif.C01_ids_unique_and_failed_calls_harmless"
   ],
   "note": ""
  },
  {
   "property": "C02",
   "status": "proved",
   "theorems": [
    "Verif.C02_directed_connections"
   ],
   "note": ""
  },
  {
   "property": "C03",
   "status": "proved",
   "theorems": [
    "Verif.C03_undirected_connections"
   ],
   "note": ""
  },
  {
   "property": "C04",
   "status": "partial",
   "theorems": [
    "Verif.C04_neighbors_first_only",
    "Verif.C04_neighbors_incomplete",
    "Verif.C04_neighbors_exact_partial",
    "Verif.C04_neighbors_undirected"
   ],
   "note": "The claim is false of the code: neighbors() yields only the far end of the newest link. Proved: the exact result for every history, the negation whenever a node has two different neighbours, and the claim itself when there is only one."
  },
  {
   "property": "C05",
   "status": "proved",
   "theorems": [
    "Verif.C05_endpoints_immutable",
    "Verif.C05_endpoints_unknown"
   ],
   "note": ""
  },
  {
   "property": "C06",
   "status": "proved",
   "theorems": [
    "Verif.C06_reverse_graph"
   ],
   "note": ""
  },
  {
   "property": "C07",
   "status": "proved",
   "theorems": [
    "Verif.C07_stochastic_round",
    "Verif.C07_round_up_count"
   ],
   "note": "rand() is an argument; counting statement for unbiasedness over the RAND_MAX+1 draws."
  },
  {
   "property": "C08",
   "status": "proved",
   "theorems": [
    "Verif.C08_round_time",
    "Verif.C08_round_time_monotone",
    "Verif.C08_round_up_is_floor_when_large"
   ],
   "note": "Also proved: the relative tolerance makes round_up_time equal to floor once precision*t >= 1."
  },
  {
   "property": "C09",
   "status": "proved",
   "theorems": [
    "Verif.C09_curve_sorted",
    "Verif.C09_add_increment_total",
    "Verif.C09_in_order_total"
   ],
   "note": ""
  },
  {
   "property": "C10",
   "status": "partial",
   "theorems": [
    "Verif.C10_get_result_partial",
    "Verif.C10_false_beyond_10000",
    "Verif.C10_get_result_monotone"
   ],
   "note": "The step-function claim is proved for whole-interval times below 10000; the relative tolerance makes it false from 10000 on (witness proved). Monotonicity and bounds are proved for every curve and query."
  },
  {
   "property": "C100",
   "status": "proved",
   "theorems": [
    "Verif.C100_no_interference",
    "Verif.C100_link_tt",
    "Verif.C100_link_speed",
    "Verif.C100_link_inflow",
    "Verif.C100_link_average",
    "Verif.C100_tables",
    "Verif.C100_path_tt",
    "Verif.C100_registered_path_tt",
    "Verif.C100_late"
   ],
   "note": "For whole start intervals (the queries that take fractional starts are covered by C100_no_interference only), fewer than 10000 intervals."
  },
  {
   "property": "C101",
   "status": "proved",
   "theorems": [
    "Verif.C101_dissipated",
    "Verif.C101_other_types",
    "Verif.C101_free_flow",
    "Verif.C101_link_queue_seconds"
   ],
   "note": "For fewer than 10000 intervals, free-flow times up to 100000 intervals and capacities below 10000 vehicles per interval, where the comparisons of the code are exact."
  },
  {
   "property": "C102",
   "status": "partial",
   "theorems": [
    "Verif.C102_cars",
    "Verif.C102_sound",
    "Verif.C102_late",
    "Verif.C102_trucks_partial",
    "Verif.C102_trucks_invalid_state"
   ],
   "note": "Proved for cars, for paths that start with a point queue and start intervals that are not negative. False of the code for trucks: it uses the last valid times of cars, and can give up with an exception (proved with a witness); proved for trucks if the last valid times agree."
  },
  {
   "property": "C103",
   "status": "partial",
   "theorems": [
    "Verif.C103_cars",
    "Verif.C103_late",
    "Verif.C103_trucks_partial",
    "Verif.C103_too_few_intervals"
   ],
   "note": "Proved for cars, with the assumptions of C102. For trucks proved if the last valid times of cars and trucks agree, as in C102. The number of assignment intervals is not checked: if it is too small, the code writes outside the matrix (proved with a witness)."
  },
  {
   "property": "C104",
   "status": "partial",
   "theorems": [
    "Verif.C104_trees",
    "Verif.C104_departures",
    "Verif.C104_records",
    "Verif.C104_saved",
    "Verif.C104_ratios_partial",
    "Verif.C104_first_links_empty",
    "Verif.C104_not_installed",
    "Verif.C104_false_for_first_links",
    "Verif.C104_false_for_other_numbers",
    "Verif.C104_false_without_path"
   ],
   "note": "Trees and records proved in full. The sums are proved for links that no origin node feeds, registered paths numbered 0, 1, ... and vehicles that travel on them. False of the code otherwise, with witnesses: origin nodes do not record moves in the trees; the number of a path is used as its column, so other numbers give wrong columns or undefined behaviour; vehicles without a path make the complete matrix undefined."
  },
  {
   "property": "C105",
   "status": "proved",
   "theorems": [
    "Verif.C105_every_passenger_in_one_place",
    "Verif.C105_every_passenger_in_one_place_at_stops"
   ],
   "note": "Bus movements are an arbitrary list of calls at stops (see DESIGN.md)."
  },
  {
   "property": "C106",
   "status": "proved",
   "theorems": [
    "Verif.C106_trips_are_continuous",
    "Verif.C106_passengers_follow_their_paths",
    "Verif.C106_passengers_arrive_at_their_destinations",
    "Verif.C106_depends_on_unset_memory"
   ],
   "note": "When passengers arrive depends on a waiting time that the code never initialises (witness); what is proved holds for every value of it."
  },
  {
   "property": "C107",
   "status": "proved",
   "theorems": [
    "Verif.C107_curves_count_passengers"
   ],
   "note": ""
  },
  {
   "property": "C108",
   "status": "proved",
   "theorems": [
    "Verif.C108_buses_within_capacity",
    "Verif.C108_who_gets_on_and_off",
    "Verif.C108_passed_stop_is_fatal"
   ],
   "note": ""
  },
  {
   "property": "C109",
   "status": "proved",
   "theorems": [
    "Verif.C109_every_kth_bus_stops"
   ],
   "note": ""
  },
  {
   "property": "C11",
   "status": "partial",
   "theorems": [
    "Verif.C11_get_time_partial",
    "Verif.C11_get_time_rounding_up",
    "Verif.C11_rounding_up_out_of_bounds"
   ],
   "note": "Rounding down: exact result proved for every curve and count. Rounding up reads out of bounds when the count was never reached (proved, with a witness), so that half of the claim is false of the code."
  },
  {
   "property": "C110",
   "status": "proved",
   "theorems": [
    "Verif.C110_served_bus_leaves_only_when_done",
    "Verif.C110_small_scalar_blocks_buses"
   ],
   "note": "With a flow scalar below 1 buses never leave a stop (proved)."
  },
  {
   "property": "C111",
   "status": "proved",
   "theorems": [
    "Verif.C111_parking_lots",
    "Verif.C111_full_lot_is_faster"
   ],
   "note": "The formula of the code is not monotone: a full lot reports a shorter search time than one with few places left (proved)."
  },
  {
   "property": "C112",
   "status": "proved",
   "theorems": [
    "Verif.C112_counters",
    "Verif.C112_deleted_passenger_is_read"
   ],
   "note": "The code reads a passenger after deleting it, which is undefined behaviour (C112_deleted_passenger_is_read); the loading is modelled with the value read being the old one."
  },
  {
   "property": "C113",
   "status": "proved",
   "theorems": [
    "Verif.C113_walking_takes_its_time",
    "Verif.C113_nobody_walks_longer"
   ],
   "note": ""
  },
  {
   "property": "C114",
   "status": "proved",
   "theorems": [
    "Verif.C114_stops_serve_in_order"
   ],
   "note": ""
  },
  {
   "property": "C115",
   "status": "proved",
   "theorems": [
    "Verif.C115_slots_serve_in_order",
    "Verif.C115_shortest_queue",
    "Verif.C115_waiting_is_bounded"
   ],
   "note": "Charging stations as they evolve between arbitrary arrivals; the rest of the network is an arbitrary environment (vehicles that arrive are not already at the station, their timers are off)."
  },
  {
   "property": "C116",
   "status": "proved",
   "theorems": [
    "Verif.C116_curves_count_charged_vehicles",
    "Verif.C116_waiting_times_are_recorded",
    "Verif.C116_recorded_times_are_too_short"
   ],
   "note": "The third theorem shows what the record does not mean: it is no bound for the time a vehicle waits."
  },
  {
   "property": "C117",
   "status": "partial",
   "theorems": [
    "Verif.C117_charging_fills_the_battery",
    "Verif.C117_stations_work",
    "Verif.C117_no_queues_below_one",
    "Verif.C117_stations_fail_below_one"
   ],
   "note": "Proved for stations with at least one queue; false with a flow scalar below one, where stations have no queues and evolving is undefined. Fewer than 10000 intervals."
  },
  {
   "property": "C118",
   "status": "proved",
   "theorems": [
    "Verif.C118_vehicles_under_way",
    "Verif.C118_queue_of_a_link",
    "Verif.C118_queues",
    "Verif.C118_negative_intervals"
   ],
   "note": "Negative intervals are not checked by the code and undefined (C118_negative_intervals)."
  },
  {
   "property": "C119",
   "status": "proved",
   "theorems": [
    "Verif.C119_waiting_times",
    "Verif.C119_waiting_without_queue"
   ],
   "note": "Every interval begun counts, so a link without a queue on record reports about one interval of waiting per vehicle (C119_waiting_without_queue)."
  },
  {
   "property": "C12",
   "status": "proved",
   "theorems": [
    "Verif.C12_inflow_additive"
   ],
   "note": ""
  },
  {
   "property": "C120",
   "status": "proved",
   "theorems": [
    "Verif.C120_coverage",
    "Verif.C120_covered"
   ],
   "note": ""
  },
  {
   "property": "C121",
   "status": "partial",
   "theorems": [
    "Verif.C121_covers_registered_links_partial",
    "Verif.C121_covers_or_throws_partial",
    "Verif.C121_link_of_an_origin_is_undefined"
   ],
   "note": "Proved when the links without paths neither leave origin nodes nor lead to destination nodes; otherwise the code dereferences the end iterator of an empty map (C121_link_of_an_origin_is_undefined)."
  },
  {
   "property": "C122",
   "status": "partial",
   "theorems": [
    "Verif.C122_covers_links_partial",
    "Verif.C122_other_links_break_paths",
    "Verif.C122_fewer_registered_links_are_undefined"
   ],
   "note": "Proved when the links are the first registered links and neither leave origin nodes nor lead to destination nodes; the code uses the registered link at the position of the link, which gives broken paths (C122_other_links_break_paths) or reads beyond the vector (C122_fewer_registered_links_are_undefined)."
  },
  {
   "property": "C123",
   "status": "proved",
   "theorems": [
    "Verif.C123_need_before_charging",
    "Verif.C123_need_after_charging"
   ],
   "note": "Links left into stations or destinations are not counted: update_miles_traveled is called at junctions only."
  },
  {
   "property": "C124",
   "status": "partial",
   "theorems": [
    "Verif.C124_best_station",
    "Verif.C124_candidates_are_checked",
    "Verif.C124_candidates_out_of_reach_are_undefined"
   ],
   "note": "C124_best_station needs candidates that can be reached and from which the destination can be reached (what the check leaves); others make the update dereference a null pointer (C124_candidates_out_of_reach_are_undefined)."
  },
  {
   "property": "C125",
   "status": "partial",
   "theorems": [
    "Verif.C125_at_origins",
    "Verif.C125_at_link_ends",
    "Verif.C125_at_destinations",
    "Verif.C125_only_adaptive",
    "Verif.C125_at_own_stations_partial",
    "Verif.C125_new_vehicles_turn_away"
   ],
   "note": "At the vehicle's own station routing fails although there is a way to the destination if from the next node there is no way back to the station (C125_at_own_stations_partial); new vehicles whose range is enough after their first link leave for their destinations uncharged (C125_new_vehicles_turn_away)."
  },
  {
   "property": "C126",
   "status": "partial",
   "theorems": [
    "Verif.C126_trips_in_order",
    "Verif.C126_tours_end",
    "Verif.C126_whole_tour_partial",
    "Verif.C126_tours_are_cut_short",
    "Verif.C126_one_trip",
    "Verif.C126_at_destinations"
   ],
   "note": "Whether a tour ends is decided by comparing the current destination with the last one, so a tour that comes by its last destination before is cut short there (C126_tours_are_cut_short); C126_whole_tour_partial needs a last destination that occurs only at the end."
  },
  {
   "property": "C127",
   "status": "proved",
   "theorems": [
    "Verif.C127_one_place",
    "Verif.C127_counters"
   ],
   "note": "What happens between origins and destinations is an arbitrary environment that moves vehicles and keeps whether a battery is for roadside charging."
  },
  {
   "property": "C128",
   "status": "proved",
   "theorems": [
    "Verif.C128_release",
    "Verif.C128_adjust"
   ],
   "note": ""
  },
  {
   "property": "C129",
   "status": "proved",
   "theorems": [
    "Verif.C129_waits_long_enough",
    "Verif.C129_waits_no_longer",
    "Verif.C129_supply",
    "Verif.C129_kept_outside",
    "Verif.C129_clock_stops"
   ],
   "note": "C129_clock_stops is a finding: the waiting time does not run in intervals whose supply is used up by other vehicles."
  },
  {
   "property": "C13",
   "status": "proved",
   "theorems": [
    "Verif.C13_travel_time_at_least_free_flow",
    "Verif.C13_robust_at_least_free_flow"
   ],
   "note": "The averaged variant returns NaN for windows shorter than one interval (part of the theorem)."
  },
  {
   "property": "C130",
   "status": "proved",
   "theorems": [
    "Verif.C130_driving_time",
    "Verif.C130_transit_time",
    "Verif.C130_park_and_ride_time",
    "Verif.C130_driving_fifo"
   ],
   "note": "Departures at whole intervals; travel times from the tables the equilibrium fills."
  },
  {
   "property": "C131",
   "status": "partial",
   "theorems": [
    "Verif.C131_driving_cost",
    "Verif.C131_transit_cost_partial",
    "Verif.C131_shorter_is_cheaper",
    "Verif.C131_park_and_ride_pays_no_tolls"
   ],
   "note": "False of the code for park-and-ride: neither the parking fee nor tolls are paid (C131_park_and_ride_pays_no_tolls); trips longer than the loading cost a thousand times as much; the fee is a fixed 8 for driving paths without a parking lot."
  },
  {
   "property": "C132",
   "status": "proved",
   "theorems": [
    "Verif.C132_initial_flows",
    "Verif.C132_initial_flows_exist",
    "Verif.C132_best_existing"
   ],
   "note": ""
  },
  {
   "property": "C133",
   "status": "proved",
   "theorems": [
    "Verif.C133_fixed_conserves",
    "Verif.C133_fixed_succeeds",
    "Verif.C133_fixed_shares",
    "Verif.C133_existing_improves"
   ],
   "note": ""
  },
  {
   "property": "C134",
   "status": "proved",
   "theorems": [
    "Verif.C134_departure_conserves",
    "Verif.C134_departure_succeeds"
   ],
   "note": ""
  },
  {
   "property": "C135",
   "status": "proved",
   "theorems": [
    "Verif.C135_projection_conserves",
    "Verif.C135_projection_improves",
    "Verif.C135_projection_direction",
    "Verif.C135_large_step_fails"
   ],
   "note": "C135_large_step_fails shows that the bound on the step is needed."
  },
  {
   "property": "C136",
   "status": "partial",
   "theorems": [
    "Verif.C136_gap_partial",
    "Verif.C136_gap_fixed_partial",
    "Verif.C136_unused_path_ignored"
   ],
   "note": "False of the code: paths that nobody uses are not compared (C136_unused_path_ignored); proved for the paths in use."
  },
  {
   "property": "C137",
   "status": "proved",
   "theorems": [
    "Verif.C137_shares",
    "Verif.C137_defined",
    "Verif.C137_odds",
    "Verif.C137_equal_disutility"
   ],
   "note": "Real numbers; the shares of demands are exact up to the 1e-9 that the code adds to each demand."
  },
  {
   "property": "C138",
   "status": "partial",
   "theorems": [
    "Verif.C138_spread_minutes",
    "Verif.C138_demand_of_paths",
    "Verif.C138_new_array_partial",
    "Verif.C138_new_array_overflows"
   ],
   "note": "False of the code for arrays that are allocated on the way when the numbers of intervals do not divide: memory behind the array is overwritten (C138_new_array_overflows)."
  },
  {
   "property": "C139",
   "status": "partial",
   "theorems": [
    "Verif.C139_logit_demand_partial",
    "Verif.C139_logit_total_partial",
    "Verif.C139_transit_off_makes_demand"
   ],
   "note": "False of the code if transit is off for the pair but has a demand array (C139_transit_off_makes_demand)."
  },
  {
   "property": "C14",
   "status": "partial",
   "theorems": [
    "Verif.C14_shrink_keeps_oldest",
    "Verif.C14_shrink_loses_newest",
    "Verif.C14_shrink_within_limit_partial"
   ],
   "note": "The claim is false of the code: shrink drops the newest records. Proved: exactly which records stay, the negation for every curve longer than the limit, and that curves within the limit are unchanged."
  },
  {
   "property": "C140",
   "status": "partial",
   "theorems": [
    "Verif.C140_transit_table",
    "Verif.C140_park_and_ride_table",
    "Verif.C140_driving_table_partial",
    "Verif.C140_trucks_bring_cars_and_get_lost"
   ],
   "note": "False of the code for truck paths whose buffers also hold cars and for pairs without driving passengers (C140_trucks_bring_cars_and_get_lost)."
  },
  {
   "property": "C141",
   "status": "proved",
   "theorems": [
    "Verif.C141_register_links"
   ],
   "note": ""
  },
  {
   "property": "C142",
   "status": "proved",
   "theorems": [
    "Verif.C142_register_paths"
   ],
   "note": ""
  },
  {
   "property": "C143",
   "status": "proved",
   "theorems": [
    "Verif.C143_register_mode_paths",
    "Verif.C143_register_all_paths"
   ],
   "note": ""
  },
  {
   "property": "C144",
   "status": "proved",
   "theorems": [
    "Verif.C144_path_numbers",
    "Verif.C144_missing_set"
   ],
   "note": ""
  },
  {
   "property": "C145",
   "status": "partial",
   "theorems": [
    "Verif.C145_sequences_partial",
    "Verif.C145_unchecked"
   ],
   "note": "Proved for connected non-empty sequences; others are converted without a check or return uninitialised memory (C145_unchecked)."
  },
  {
   "property": "C146",
   "status": "proved",
   "theorems": [
    "Verif.C146_arrays",
    "Verif.C146_link_files",
    "Verif.C146_turn_files",
    "Verif.C146_wrong_row"
   ],
   "note": ""
  },
  {
   "property": "C147",
   "status": "proved",
   "theorems": [
    "Verif.C147_extracted_table"
   ],
   "note": ""
  },
  {
   "property": "C148",
   "status": "partial",
   "theorems": [
    "Verif.C148_turns_partial",
    "Verif.C148_without_turns_partial",
    "Verif.C148_not_optimal",
    "Verif.C148_delays_inconsistent"
   ],
   "note": "Proved: reported cost = cost of the extracted path without delays and inside the horizon; without turns everything. False of the code: optimality with turn costs (C148_not_optimal), agreement with delays (C148_delays_inconsistent)."
  },
  {
   "property": "C149",
   "status": "proved",
   "theorems": [
    "Verif.C149_initial_table",
    "Verif.C149_missing_paths",
    "Verif.C149_reassign",
    "Verif.C149_total_kept"
   ],
   "note": ""
  },
  {
   "property": "C15",
   "status": "proved",
   "theorems": [
    "Verif.C15_pq_conservation",
    "Verif.C15_pq_never_fails"
   ],
   "note": ""
  },
  {
   "property": "C150",
   "status": "partial",
   "theorems": [
    "Verif.C150_travel_partial",
    "Verif.C150_release",
    "Verif.C150_after_horizon",
    "Verif.C150_waiting_vehicle_skips_a_link"
   ],
   "note": "Proved for histories in which no vehicle waits at its origin until the next release. False of the code otherwise (C150_waiting_vehicle_skips_a_link); updates at release times after the horizon read outside the demand (C150_after_horizon)."
  },
  {
   "property": "C151",
   "status": "partial",
   "theorems": [
    "Verif.C151_shares_partial",
    "Verif.C151_zero_share",
    "Verif.C151_next_destination"
   ],
   "note": "Proved for origins with one destination and shares of at least one vehicle each. False of the code with shares of zero (C151_zero_share) or several destinations (C151_next_destination)."
  },
  {
   "property": "C152",
   "status": "proved",
   "theorems": [
    "Verif.C152_spillback",
    "Verif.C152_fractional_factor"
   ],
   "note": "For all factors the indicator is sound; complete for whole factors. The second theorem is a loading with factor 3.2 whose spillback goes unnoticed, so the restriction is needed."
  },
  {
   "property": "C153",
   "status": "partial",
   "theorems": [
    "Verif.C153_bus_link_tt_partial",
    "Verif.C153_bus_time_partial",
    "Verif.C153_robust_partial",
    "Verif.C153_last_bus_standing",
    "Verif.C153_bunched_buses",
    "Verif.C153_buses_in_parts"
   ],
   "note": "Exact for whole buses, all histories and all calls before; the full claim is false: from the arrival of the last bus on (and for a bunch of which not all buses leave) the answer is 'no bus' although a bus stands at the stop, and a bus in parts is passed over once a part of the next one has arrived (three witnesses).  Robust variant: periods with at most as many intervals as trials."
  },
  {
   "property": "C154",
   "status": "partial",
   "theorems": [
    "Verif.C154_no_overtaking_partial",
    "Verif.C154_buses_in_parts"
   ],
   "note": "Proved for whole buses (flow scalar 1); false for buses simulated in parts (witness with flow scalar 4)."
  },
  {
   "property": "C155",
   "status": "proved",
   "theorems": [
    "Verif.C155_no_interference"
   ],
   "note": "Any sequence of calls of the three queries."
  },
  {
   "property": "C156",
   "status": "proved",
   "theorems": [
    "Verif.C156_walking_link_tt",
    "Verif.C156_implicit_bus"
   ],
   "note": ""
  },
  {
   "property": "C157",
   "status": "partial",
   "theorems": [
    "Verif.C157_registered",
    "Verif.C157_loading_unchanged",
    "Verif.C157_hours",
    "Verif.C157_trips_partial",
    "Verif.C157_trips_false_address_reused"
   ],
   "note": "Trips are a set of pointers: C157_trips_partial counts addresses, which are vehicles only while no address is used again; the witness shows a car missed because its object got the address of a deleted one. Hours are exact without point queues among the registered links, and at most the time spent with them."
  },
  {
   "property": "C158",
   "status": "proved",
   "theorems": [
    "Verif.C158_one_interval",
    "Verif.C158_never_less",
    "Verif.C158_update_states",
    "Verif.C158_totals",
    "Verif.C158_trucks_emit_more"
   ],
   "note": "Rates are exact rationals; the polynomials of the car rates are those of C55."
  },
  {
   "property": "C159",
   "status": "proved",
   "theorems": [
    "Verif.C159_order_and_conservation"
   ],
   "note": "Kinds that keep their order: cars, trucks that are not buses, buses of one route. Order of arrival except for point queues at an origin, where vehicles to be parked wait for their travellers."
  },
  {
   "property": "C16",
   "status": "proved",
   "theorems": [
    "Verif.C16_pq_fifo",
    "Verif.C16_pq_exact_delay"
   ],
   "note": "The delay is counted from admission (clear_incoming_array) to readiness (evolve): a vehicle admitted in interval j is ready at the end of interval j + M - 1, that is, after M evolves, M being the free-flow time reported by the link."
  },
  {
   "property": "C160",
   "status": "proved",
   "theorems": [
    "Verif.C160_every_stop_served",
    "Verif.C160_dwelling_first"
   ],
   "note": "The passengers are an oracle here (they are modelled for C139 to C154)."
  },
  {
   "property": "C161",
   "status": "proved",
   "theorems": [
    "Verif.C161_no_inconsistency",
    "Verif.C161_interval_goes_through",
    "Verif.C161_loop_waits_for_draw"
   ],
   "note": "The last theorem shows that the condition on the draws is needed."
  },
  {
   "property": "C162",
   "status": "proved",
   "theorems": [
    "Verif.C162_time_on_point_queue",
    "Verif.C162_only_own_buses"
   ],
   "note": "Time from the moment the vehicle is on the link; waiting to be admitted is not counted."
  },
  {
   "property": "C163",
   "status": "partial",
   "theorems": [
    "Verif.C163_cars_one_cell_partial",
    "Verif.C163_false_truck_jumps"
   ],
   "note": "Proved for cars. False for trucks: a truck behind a held bus crosses several cells in one interval."
  },
  {
   "property": "C164",
   "status": "proved",
   "theorems": [
    "Verif.C164_ctm_interval",
    "Verif.C164_ctm_admit",
    "Verif.C164_pq"
   ],
   "note": "The volumes of point queues differ, see C166; point queues at an origin let vehicles to be parked wait."
  },
  {
   "property": "C165",
   "status": "proved",
   "theorems": [
    "Verif.C165_stops_on_cells",
    "Verif.C165_stops_on_intervals",
    "Verif.C165_too_close_refused"
   ],
   "note": "Parsing of the lines of the file is not modelled."
  },
  {
   "property": "C166",
   "status": "partial",
   "theorems": [
    "Verif.C166_flow_at_exit_partial",
    "Verif.C166_false_travelling_not_counted"
   ],
   "note": "False: only vehicles waiting at the exit are counted; that much is proved."
  },
  {
   "property": "C167",
   "status": "partial",
   "theorems": [
    "Verif.C167_release",
    "Verif.C167_succeeds",
    "Verif.C167_before",
    "Verif.C167_adaptive_partial",
    "Verif.C167_false_share_of_trucks"
   ],
   "note": "Numbers, attributes and counters are proved in full. The share of adaptive drivers is proved for destinations with their own share and for loadings without such; it is false for park-and-ride cars otherwise: they get the share left over from the last destination of the trucks or cars."
  },
  {
   "property": "C168",
   "status": "partial",
   "theorems": [
    "Verif.C168_first_minute",
    "Verif.C168_spread_partial",
    "Verif.C168_false_below_one",
    "Verif.C168_buses_partial",
    "Verif.C168_false_buses_lost",
    "Verif.C168_fifteen"
   ],
   "note": "True when all demand is put into the first minute. When it is spread, demand below one vehicle per interval is dropped and up to 14 buses of an interval are lost; intervals must have 15 minutes."
  },
  {
   "property": "C169",
   "status": "partial",
   "theorems": [
    "Verif.C169_counters",
    "Verif.C169_travel_stats_partial",
    "Verif.C169_false_trucks_as_buses"
   ],
   "note": "All counters, and the report but for one error: the hours of trucks under way are reported as hours of buses."
  },
  {
   "property": "C17",
   "status": "proved",
   "theorems": [
    "Verif.C17_ctm_conservation_fifo",
    "Verif.C17_ctm_evolve_succeeds",
    "Verif.C17_zero_length_link_is_undefined"
   ],
   "note": "Also proved: evolve does not fail on links of positive length, and a zero-length link, which the constructor accepts, is undefined behaviour on first use."
  },
  {
   "property": "C170",
   "status": "proved",
   "theorems": [
    "Verif.C170_one_router",
    "Verif.C170_follows_path",
    "Verif.C170_next_link",
    "Verif.C170_arrives",
    "Verif.C170_adaptive",
    "Verif.C170_false_through_destination"
   ],
   "note": "The last theorem shows that the conditions on the path are needed."
  },
  {
   "property": "C171",
   "status": "partial",
   "theorems": [
    "Verif.C171_one_lot_partial",
    "Verif.C171_false_turns_around"
   ],
   "note": "True if a destination has one suitable parking lot. False for several: the lot is drawn anew at every node."
  },
  {
   "property": "C172",
   "status": "partial",
   "theorems": [
    "Verif.C172_copy_partial",
    "Verif.C172_false_others",
    "Verif.C172_false_link_queue",
    "Verif.C172_false_path_lost",
    "Verif.C172_false_stands_still"
   ],
   "note": "Proved for vehicles on point queues and cell transmission links; false for other links, nodes, paths and volumes."
  },
  {
   "property": "C173",
   "status": "proved",
   "theorems": [
    "Verif.C173_update",
    "Verif.C173_ratio",
    "Verif.C173_always"
   ],
   "note": ""
  },
  {
   "property": "C174",
   "status": "partial",
   "theorems": [
    "Verif.C174_range_partial",
    "Verif.C174_false_ratio_never_moves",
    "Verif.C174_false_prediction_ignores_signs"
   ],
   "note": "Range proved; the ratio never moves from one, so signs do not influence the prediction."
  },
  {
   "property": "C175",
   "status": "partial",
   "theorems": [
    "Verif.C175_hooked",
    "Verif.C175_detour",
    "Verif.C175_none",
    "Verif.C175_demand",
    "Verif.C175_false_own_link",
    "Verif.C175_false_first_alternative"
   ],
   "note": "Lists and choice proved; false that the sign's own link is not an alternative, and after an optimisation the first alternative always wins."
  },
  {
   "property": "C176",
   "status": "partial",
   "theorems": [
    "Verif.C176_value",
    "Verif.C176_mean_partial",
    "Verif.C176_false_never_reset",
    "Verif.C176_false_number",
    "Verif.C176_false_many_points"
   ],
   "note": "Exact value proved; a mean only for a first gradient and a divisor."
  },
  {
   "property": "C177",
   "status": "partial",
   "theorems": [
    "Verif.C177_measured",
    "Verif.C177_range",
    "Verif.C177_false_waiting_vehicle"
   ],
   "note": "Proved for runs in which no vehicle waits at the entrance of a link; such runs raise."
  },
  {
   "property": "C178",
   "status": "partial",
   "theorems": [
    "Verif.C178_estimation",
    "Verif.C178_false_optimisation_never_moves"
   ],
   "note": "Sign of the estimation gradient proved; optimisation never changes portions."
  },
  {
   "property": "C179",
   "status": "partial",
   "theorems": [
    "Verif.C179_first_partial",
    "Verif.C179_false_rounds",
    "Verif.C179_false_second"
   ],
   "note": "Holds only for one iteration with no estimation round and at most one optimisation round."
  },
  {
   "property": "C18",
   "status": "proved",
   "theorems": [
    "Verif.C18_demand_supply_bounds",
    "Verif.C18_flow_between_cells",
    "Verif.C18_density_bound"
   ],
   "note": ""
  },
  {
   "property": "C180",
   "status": "proved",
   "theorems": [
    "Verif.C180_releases",
    "Verif.C180_undefined"
   ],
   "note": ""
  },
  {
   "property": "C181",
   "status": "proved",
   "theorems": [
    "Verif.C181_messages",
    "Verif.C181_no_detour"
   ],
   "note": ""
  },
  {
   "property": "C182",
   "status": "partial",
   "theorems": [
    "Verif.C182_closed",
    "Verif.C182_unknown",
    "Verif.C182_twice",
    "Verif.C182_false_graph_keeps_link",
    "Verif.C182_false_not_hooked"
   ],
   "note": "Proved for hooked networks; the graph keeps the closed link."
  },
  {
   "property": "C183",
   "status": "partial",
   "theorems": [
    "Verif.C183_trees",
    "Verif.C183_records_partial",
    "Verif.C183_not_installed",
    "Verif.C183_false_through_destinations"
   ],
   "note": "Proved for links that do not lead out of a parking lot and passengers that have a path (every passenger gets one when it is routed; this is a hypothesis here). Passengers that walk on through a destination onto a link out of its parking lot are not recorded."
  },
  {
   "property": "C184",
   "status": "partial",
   "theorems": [
    "Verif.C184_trees_partial",
    "Verif.C184_no_leak_partial",
    "Verif.C184_false_bus_links_twice"
   ],
   "note": "Proved if trees are installed on each bus link at most once; the second installation frees the wrong tree."
  },
  {
   "property": "C185",
   "status": "partial",
   "theorems": [
    "Verif.C185_portions_partial",
    "Verif.C185_distance_partial",
    "Verif.C185_time_partial",
    "Verif.C185_no_more_runs",
    "Verif.C185_rows",
    "Verif.C185_false_return"
   ],
   "note": "false for a bus link that comes back to its first driving link: the portion of the last link is computed from the first stop"
  },
  {
   "property": "C186",
   "status": "partial",
   "theorems": [
    "Verif.C186_check_path",
    "Verif.C186_cut_path",
    "Verif.C186_again",
    "Verif.C186_check_table",
    "Verif.C186_false_return",
    "Verif.C186_cut_off"
   ],
   "note": "exact result of the check by the places the code compares; a stop passed on a second visit to the first link is not seen"
  },
  {
   "property": "C187",
   "status": "partial",
   "theorems": [
    "Verif.C187_on_the_way_partial",
    "Verif.C187_not_at_a_stop_partial",
    "Verif.C187_no_more_buses",
    "Verif.C187_false_after_demand",
    "Verif.C187_false_ring"
   ],
   "note": "false after the last minute with demand (out of bounds) and on circular routes (endless loop); fewer than ten thousand buses, whole buses"
  },
  {
   "property": "C188",
   "status": "partial",
   "theorems": [
    "Verif.C188_driving",
    "Verif.C188_transit_partial",
    "Verif.C188_flags",
    "Verif.C188_false_same_number"
   ],
   "note": "false when a driving link of a park-and-ride path has the number of the registered link; exact flags for all networks in C188_flags"
  },
  {
   "property": "C189",
   "status": "partial",
   "theorems": [
    "Verif.C189_nothing_to_do",
    "Verif.C189_generated_partial",
    "Verif.C189_covers_partial",
    "Verif.C189_false_bus_links",
    "Verif.C189_false_walking_links",
    "Verif.C189_false_links_do_not_follow",
    "Verif.C189_false_park_and_ride"
   ],
   "note": "false: ends looked up in the driving network (throws), new paths not connected, park-and-ride paths freed before use; effect on tables and flags proved for every call that returns"
  },
  {
   "property": "C19",
   "status": "proved",
   "theorems": [
    "Verif.C19_lq_conservation_fifo",
    "Verif.C19_lq_release"
   ],
   "note": ""
  },
  {
   "property": "C190",
   "status": "partial",
   "theorems": [
    "Verif.C190_lots",
    "Verif.C190_check_partial",
    "Verif.C190_false_outside",
    "Verif.C190_false_number_zero",
    "Verif.C190_false_pnr"
   ],
   "note": "false: destinations outside the transit graph are passed over, the way by car to the car park is not checked, and links with number 0 count as no way"
  },
  {
   "property": "C191",
   "status": "proved",
   "theorems": [
    "Verif.C191_right",
    "Verif.C191_cut"
   ],
   "note": "links with positive numbers; for number 0 false (C190_false_number_zero)"
  },
  {
   "property": "C192",
   "status": "partial",
   "theorems": [
    "Verif.C192_round_trip_partial",
    "Verif.C192_more_pairs",
    "Verif.C192_false_fewer_pairs",
    "Verif.C192_false_fewer_modes",
    "Verif.C192_false_stale_file"
   ],
   "note": "false unless all three modes are configured (undefined behaviour on writing), when fewer pairs are configured, and for a file of another network"
  },
  {
   "property": "C193",
   "status": "partial",
   "theorems": [
    "Verif.C193_rows_partial",
    "Verif.C193_table_partial",
    "Verif.C193_false_origin",
    "Verif.C193_false_too_few_rows"
   ],
   "note": "false: the origin is only written in the first row of each origin; with more pairs than configured it writes out of bounds"
  },
  {
   "property": "C194",
   "status": "proved",
   "theorems": [
    "Verif.C194_files",
    "Verif.C194_other_modes"
   ],
   "note": "text of the files for every map of connectivity that is right"
  },
  {
   "property": "C195",
   "status": "partial",
   "theorems": [
    "Verif.C195_toll_file",
    "Verif.C195_error",
    "Verif.C195_too_few",
    "Verif.C195_none",
    "Verif.C195_two_classes",
    "Verif.C195_false_no_first_line"
   ],
   "note": "a file without first line loses its first toll without error when it has no final newline"
  },
  {
   "property": "C196",
   "status": "partial",
   "theorems": [
    "Verif.C196_label_file",
    "Verif.C196_labels_partial",
    "Verif.C196_false_short_row",
    "Verif.C196_false_beyond_end"
   ],
   "note": "false for rows with the wrong number of words (ignored) and when fewer rows than configured (the last one is read again)"
  },
  {
   "property": "C197",
   "status": "partial",
   "theorems": [
    "Verif.C197_tracking",
    "Verif.C197_error",
    "Verif.C197_false_no_first_line"
   ],
   "note": "a file without first line loses its first pair"
  },
  {
   "property": "C198",
   "status": "partial",
   "theorems": [
    "Verif.C198_ratio_file",
    "Verif.C198_two_classes_partial",
    "Verif.C198_false_short_interval"
   ],
   "note": "two classes: false for intervals shorter than fifteen minutes (read out of bounds)"
  },
  {
   "property": "C199",
   "status": "partial",
   "theorems": [
    "Verif.C199_attr_file_partial",
    "Verif.C199_error",
    "Verif.C199_false_fraction"
   ],
   "note": "false for tolls that are not whole numbers"
  },
  {
   "property": "C20",
   "status": "proved",
   "theorems": [
    "Verif.C20_ltm_conservation_fifo"
   ],
   "note": ""
  },
  {
   "property": "C200",
   "status": "partial",
   "theorems": [
    "Verif.C200_places_partial",
    "Verif.C200_false_skipped",
    "Verif.C200_false_twice",
    "Verif.C200_false_kind"
   ],
   "note": "malformed rows are skipped, numbers used twice are kept, nodes of another kind are undefined behaviour"
  },
  {
   "property": "C201",
   "status": "proved",
   "theorems": [
    "Verif.C201_node_file",
    "Verif.C201_link_file"
   ],
   "note": ""
  },
  {
   "property": "C202",
   "status": "partial",
   "theorems": [
    "Verif.C202_demand_partial",
    "Verif.C202_first_minute_partial",
    "Verif.C202_false_short_interval",
    "Verif.C202_false_long_interval"
   ],
   "note": "only for intervals of fifteen minutes; false for others"
  },
  {
   "property": "C203",
   "status": "proved",
   "theorems": [
    "Verif.C203_records",
    "Verif.C203_record_map",
    "Verif.C203_classes_add",
    "Verif.C203_false_car_times_ignore_trucks",
    "Verif.C203_zero_interval"
   ],
   "note": "finding: recorded times of cars ignore trucks; record interval 0 is undefined"
  },
  {
   "property": "C204",
   "status": "partial",
   "theorems": [
    "Verif.C204_numbers",
    "Verif.C204_hooks_partial",
    "Verif.C204_both_readings_partial",
    "Verif.C204_error",
    "Verif.C204_false_trailing_blank"
   ],
   "note": "false for rows of origins that end with a blank and a carriage return or tab: the origin is made but never attached"
  },
  {
   "property": "C205",
   "status": "proved",
   "theorems": [
    "Verif.C205_sign_file",
    "Verif.C205_error"
   ],
   "note": ""
  },
  {
   "property": "C206",
   "status": "partial",
   "theorems": [
    "Verif.C206_one_mode",
    "Verif.C206_cost",
    "Verif.C206_best_partial",
    "Verif.C206_false_park_and_ride",
    "Verif.C206_no_park_and_ride",
    "Verif.C206_single_park_and_ride_partial",
    "Verif.C206_false_losing_park_and_ride"
   ],
   "note": "Proved for driving and transit, alone and together. False with park and ride: deleting a park-and-ride passenger path frees its driving and transit paths twice, so two offers, or one that loses, make the search undefined."
  },
  {
   "property": "C207",
   "status": "partial",
   "theorems": [
    "Verif.C207_passenger_stats_partial",
    "Verif.C207_false_queue_each_link"
   ],
   "note": "The totals are proved for every loading; the queries about each link read arrays of 32-bit integers as 64-bit floating point numbers, and are proved never to answer a call that asks for an interval."
  },
  {
   "property": "C208",
   "status": "partial",
   "theorems": [
    "Verif.C208_transit_paths",
    "Verif.C208_unknown_link",
    "Verif.C208_park_and_ride_paths_partial",
    "Verif.C208_false_drive_through_destination",
    "Verif.C208_false_short_row"
   ],
   "note": "Transit paths in full (without buffers); park-and-ride paths when the drive has no parallel links and is at the destination in the middle only at its end, with counterexamples for other paths."
  },
  {
   "property": "C209",
   "status": "proved",
   "theorems": [
    "Verif.C209_bus_routes",
    "Verif.C209_numbers_of_stop_rows_ignored",
    "Verif.C209_false_no_nodes",
    "Verif.C209_first_row_counts"
   ],
   "note": "For files whose rows are in the same order, with each route once and paths without parallel links; the other theorems say what happens with other files."
  },
  {
   "property": "C21",
   "status": "partial",
   "theorems": [
    "Verif.C21_travel_time_bounds_partial",
    "Verif.C21_travel_time_monotone",
    "Verif.C21_travel_time_of_link",
    "Verif.C21_false_at_jam_density"
   ],
   "note": "Below jam density everything is proved. At jam density the code returns one hour, which is below the free-flow time on links longer than one hour (witness proved), so the lower bound is false there."
  },
  {
   "property": "C210",
   "status": "proved",
   "theorems": [
    "Verif.C210_station_file",
    "Verif.C210_error",
    "Verif.C210_no_stations"
   ],
   "note": "Single precision of the decimal numbers is left out."
  },
  {
   "property": "C211",
   "status": "proved",
   "theorems": [
    "Verif.C211_candidate_file",
    "Verif.C211_all_stations",
    "Verif.C211_round_trip",
    "Verif.C211_error",
    "Verif.C211_false_not_a_station"
   ],
   "note": "The last theorem says that a node that is no station is not refused: a null pointer becomes a candidate."
  },
  {
   "property": "C212",
   "status": "proved",
   "theorems": [
    "Verif.C212_tour_files",
    "Verif.C212_read_tours",
    "Verif.C212_no_tours",
    "Verif.C212_false_odd"
   ],
   "note": "The last theorem says that a row with an odd number of words makes the reader read outside of a vector."
  },
  {
   "property": "C213",
   "status": "partial",
   "theorems": [
    "Verif.C213_places_partial",
    "Verif.C213_whole",
    "Verif.C213_no_file",
    "Verif.C213_false_too_many",
    "Verif.C213_false_random"
   ],
   "note": "Every well-formed file of distinct origins and destinations defines exactly these, with waits within one interval of what it says. Missing: files that repeat a number or have refused rows. Refuted: rows with too many words are dropped without an error, and the waiting times depend on random draws."
  },
  {
   "property": "C214",
   "status": "proved",
   "theorems": [
    "Verif.C214_number_round_trip",
    "Verif.C214_false_small"
   ],
   "note": "For every rational number, with the rounding of printf to six decimals. Not modelled: rounding to a double or float when reading."
  },
  {
   "property": "C215",
   "status": "partial",
   "theorems": [
    "Verif.C215_flow_round_trip",
    "Verif.C215_false_missing_file",
    "Verif.C215_false_comments"
   ],
   "note": "The round trip holds for every table and all flows. Refuted: a missing file of flows is not reported, and comments and blank lines in it are not skipped (the loop tests the wrong line)."
  },
  {
   "property": "C216",
   "status": "proved",
   "theorems": [
    "Verif.C216_waiting_file",
    "Verif.C216_station_waits",
    "Verif.C216_charged_file"
   ],
   "note": "For every record in any memory order, and for the record of a station after any loading. Not modelled: failures to open the files."
  },
  {
   "property": "C217",
   "status": "partial",
   "theorems": [
    "Verif.C217_check_partial",
    "Verif.C217_false_isolated",
    "Verif.C217_false_shared"
   ],
   "note": "For every graph, configuration and order. Refuted: places at nodes without links make the check throw, and an origin and a destination at one node make it read an undefined entry."
  },
  {
   "property": "C218",
   "status": "proved",
   "theorems": [
    "Verif.C218_hooked",
    "Verif.C218_incomplete"
   ],
   "note": "For every graph and all factories. Not modelled: the messages of the exceptions; hooking up twice."
  },
  {
   "property": "C219",
   "status": "partial",
   "theorems": [
    "Verif.C219_cost_files_partial",
    "Verif.C219_false_no_costs"
   ],
   "note": "For every table whose paths have nodes and costs. Refuted: a path whose costs were not computed makes saving undefined."
  },
  {
   "property": "C22",
   "status": "proved",
   "theorems": [
    "Verif.C22_fwj_flows",
    "Verif.C22_fwj_total",
    "Verif.C22_grj_no_supply"
   ],
   "note": ""
  },
  {
   "property": "C220",
   "status": "partial",
   "theorems": [
    "Verif.C220_check_partial",
    "Verif.C220_false_absent"
   ],
   "note": "For every transit graph and all objects; the answers of the driving check, the connectivity and the bus paths are arguments. Refuted: places outside of the transit graph make the check throw."
  },
  {
   "property": "C221",
   "status": "partial",
   "theorems": [
    "Verif.C221_pairs_partial",
    "Verif.C221_ints_partial",
    "Verif.C221_floats_partial",
    "Verif.C221_zones_partial",
    "Verif.C221_bad_pairs_partial",
    "Verif.C221_bad_zones_partial",
    "Verif.C221_false_missing"
   ],
   "note": "Everything but the last clause is proved; the last clause is false: a missing file is read as if it were empty, without an error. Rounding to single precision by std::stof is left out."
  },
  {
   "property": "C222",
   "status": "partial",
   "theorems": [
    "Verif.C222_demanded_partial",
    "Verif.C222_possible_partial",
    "Verif.C222_returns_partial",
    "Verif.C222_false_no_demand"
   ],
   "note": "A returned pair has demand, every pair with demand can be returned, and a pair is returned exactly if the random numbers come to an origin with demand. Refuted: without demand the call never returns, and without origins it is undefined."
  },
  {
   "property": "C223",
   "status": "proved",
   "theorems": [
    "Verif.C223_dump"
   ],
   "note": "For all links and curves with whole times. Values are written with six decimals (C214). Not modelled: failure to open the file."
  },
  {
   "property": "C23",
   "status": "partial",
   "theorems": [
    "Verif.C23_round_flow_partial",
    "Verif.C23_terminates",
    "Verif.C23_negative_supply_never_ends",
    "Verif.C23_negative_supply_reachable"
   ],
   "note": "Proved for non-negative supplies, including termination. A link-queue link can report a negative supply (reachable, proved), and then the rounding loop never ends (proved)."
  },
  {
   "property": "C24",
   "status": "proved",
   "theorems": [
    "Verif.C24_node_transfer",
    "Verif.C24_node_conservation"
   ],
   "note": ""
  },
  {
   "property": "C25",
   "status": "proved",
   "theorems": [
    "Verif.C25_node_curves"
   ],
   "note": ""
  },
  {
   "property": "C26",
   "status": "proved",
   "theorems": [
    "Verif.C26_origin_release"
   ],
   "note": ""
  },
  {
   "property": "C27",
   "status": "proved",
   "theorems": [
    "Verif.C27_destination_absorbs",
    "Verif.C27_receive",
    "Verif.C27_wrong_destination"
   ],
   "note": ""
  },
  {
   "property": "C28",
   "status": "proved",
   "theorems": [
    "Verif.C28_factory_counts",
    "Verif.C28_remove"
   ],
   "note": ""
  },
  {
   "property": "C29",
   "status": "proved",
   "theorems": [
    "Verif.C29_network_conservation"
   ],
   "note": ""
  },
  {
   "property": "C30",
   "status": "proved",
   "theorems": [
    "Verif.C30_curves_count_vehicles"
   ],
   "note": ""
  },
  {
   "property": "C31",
   "status": "proved",
   "theorems": [
    "Verif.C31_total_travel_time",
    "Verif.C31_travel_stats"
   ],
   "note": ""
  },
  {
   "property": "C32",
   "status": "proved",
   "theorems": [
    "Verif.C32_normalized",
    "Verif.C32_uniform",
    "Verif.C32_negative"
   ],
   "note": ""
  },
  {
   "property": "C33",
   "status": "proved",
   "theorems": [
    "Verif.C33_draw_in_bracket",
    "Verif.C33_register_after_normalize"
   ],
   "note": ""
  },
  {
   "property": "C34",
   "status": "proved",
   "theorems": [
    "Verif.C34_follows_path",
    "Verif.C34_next_link"
   ],
   "note": "For every run of the loading model with fixed or hybrid routing; a path lists no link twice in a row (no self-loops, C01)."
  },
  {
   "property": "C35",
   "status": "proved",
   "theorems": [
    "Verif.C35_eliminate_cycles",
    "Verif.C35_idempotent"
   ],
   "note": "For every graph and every walk in it. On a node list without links to match, the code has undefined behaviour (Res.ub in the model)."
  },
  {
   "property": "C36",
   "status": "proved",
   "theorems": [
    "Verif.C36_extract_path_fifo",
    "Verif.C36_extract_path_dijkstra"
   ],
   "note": ""
  },
  {
   "property": "C37",
   "status": "proved",
   "theorems": [
    "Verif.C37_fifo_shortest_paths",
    "Verif.C37_unknown_destination"
   ],
   "note": ""
  },
  {
   "property": "C38",
   "status": "proved",
   "theorems": [
    "Verif.C38_dijkstra_shortest_paths",
    "Verif.C38_stale_next_link"
   ],
   "note": "For every choice rule of the priority queue. Finding: with a reused map, nodes that do not reach the destination keep the next link of an earlier run."
  },
  {
   "property": "C39",
   "status": "partial",
   "theorems": [
    "Verif.C39_fifo_dijkstra_agree_partial",
    "Verif.C39_lifo_takes_cheapest_link",
    "Verif.C39_lifo_disagrees"
   ],
   "note": "FIFO and Dijkstra agree. The claim is false of all_to_one_LIFO: it scans all links for each node and only finds a cheapest outgoing link (proved in general, and a witness)."
  },
  {
   "property": "C40",
   "status": "proved",
   "theorems": [
    "Verif.C40_tdsp_optimal"
   ],
   "note": ""
  },
  {
   "property": "C41",
   "status": "proved",
   "theorems": [
    "Verif.C41_extracted_tdsp"
   ],
   "note": ""
  },
  {
   "property": "C42",
   "status": "proved",
   "theorems": [
    "Verif.C42_path_sets",
    "Verif.C42_shared_node_duplicates",
    "Verif.C42_shared_origin_undefined"
   ],
   "note": "Also termination and the exact condition of the exception. Findings: two destinations at one node store duplicates; two origins at one node make the code dereference an end iterator."
  },
  {
   "property": "C43",
   "status": "proved",
   "theorems": [
    "Verif.C43_iterations_conserve",
    "Verif.C43_demand_is_served",
    "Verif.C43_shares"
   ],
   "note": "over any number of iterations, any best paths, step in [0,1] and root >= 1 (sqrt (iter + 1)); exact rational arithmetic"
  },
  {
   "property": "C44",
   "status": "partial",
   "theorems": [
    "Verif.C44_total_conserved_partial",
    "Verif.C44_nonneg_partial",
    "Verif.C44_negative_flow"
   ],
   "note": "Total flow is conserved over any number of iterations. Non-negativity is false of the code: when the best path is new, the same amount is taken from every path in the best interval, whatever its flow there (C44_negative_flow); proved where the best path is known or the flows suffice."
  },
  {
   "property": "C45",
   "status": "partial",
   "theorems": [
    "Verif.C45_conserves_partial",
    "Verif.C45_direction",
    "Verif.C45_creates_demand",
    "Verif.C45_large_step"
   ],
   "note": "Proved when the path found is no dearer than the paths in use and the step is at most one. False otherwise: with tolls the path found may be dearer, and demand is then created."
  },
  {
   "property": "C46",
   "status": "partial",
   "theorems": [
    "Verif.C46_gap",
    "Verif.C46_fixed_gap_partial",
    "Verif.C46_fixed_gap_ignores_unused",
    "Verif.C46_fixed_gap_undefined"
   ],
   "note": "Full statement proved for compute_merit_function. The variant for fixed departure times compares the paths in use only, and is 0/0 without flow; what it does satisfy is C46_fixed_gap_partial."
  },
  {
   "property": "C47",
   "status": "proved",
   "theorems": [
    "Verif.C47_records",
    "Verif.C47_record_map"
   ],
   "note": "For every sequence of link states and record length at least one; length zero is undefined behaviour."
  },
  {
   "property": "C48",
   "status": "proved",
   "theorems": [
    "Verif.C48_registered",
    "Verif.C48_matrix",
    "Verif.C48_entries",
    "Verif.C48_portions",
    "Verif.C48_periods_checked",
    "Verif.C48_false_for_duplicate_paths",
    "Verif.C48_short_flows_undefined"
   ],
   "note": "Proved for distinct registered paths and a path flow vector of full length. With duplicates columns collide, and a short vector is read out of bounds; both are shown."
  },
  {
   "property": "C49",
   "status": "partial",
   "theorems": [
    "Verif.C49_every_line_means_something",
    "Verif.C49_lookup_partial",
    "Verif.C49_numbers",
    "Verif.C49_default_never_used",
    "Verif.C49_slash_confuses"
   ],
   "note": "Lookups proved for every file content, with section names without '/'. False of the code: the overloads with a default never return it (they catch const char * while std::invalid_argument is thrown)."
  },
  {
   "property": "C50",
   "status": "partial",
   "theorems": [
    "Verif.C50_enough_rows_partial",
    "Verif.C50_short_file_hangs",
    "Verif.C50_short_file_repeats",
    "Verif.C50_nodes_end_iff",
    "Verif.C50_missing_graph_file_hangs"
   ],
   "note": "True when the file has enough rows. False otherwise: with too few rows the readers never end (file ending with a newline) or process the last row again; a missing graph file makes build_graph loop for ever."
  },
  {
   "property": "C51",
   "status": "proved",
   "theorems": [
    "Verif.C51_table",
    "Verif.C51_table_counts"
   ],
   "note": ""
  },
  {
   "property": "C52",
   "status": "proved",
   "theorems": [
    "Verif.C52_classes_conserved",
    "Verif.C52_classes_apart",
    "Verif.C52_fifo_within_class"
   ],
   "note": "Links of all three kinds, any history including attribute changes."
  },
  {
   "property": "C53",
   "status": "proved",
   "theorems": [
    "Verif.C53_release"
   ],
   "note": ""
  },
  {
   "property": "C54",
   "status": "partial",
   "theorems": [
    "Verif.C54_ends_partial",
    "Verif.C54_false_on_cycles",
    "Verif.C54_depends_on_numbers"
   ],
   "note": "Proved: the test ends on every graph. False of the code: it answers false on every graph with a directed cycle, and true or false on graphs without, depending on link numbers."
  },
  {
   "property": "C55",
   "status": "proved",
   "theorems": [
    "Verif.C55_one_interval",
    "Verif.C55_totals",
    "Verif.C55_output_period"
   ],
   "note": "links in use are links made from valid parameters after any history; exact rational arithmetic; no division by zero is part of the statement"
  },
  {
   "property": "C56",
   "status": "proved",
   "theorems": [
    "Verif.C56_round_trip",
    "Verif.C56_parallel_link_changed",
    "Verif.C56_unconnected_row_accepted",
    "Verif.C56_unconnected_first_row_undefined"
   ],
   "note": "For paths with at least one link and no parallel links. Witnesses outside the quantifier: a parallel link is changed; a row whose nodes are not connected is accepted with the previous link, and is undefined behaviour in the first row."
  },
  {
   "property": "C57",
   "status": "partial",
   "theorems": [
    "Verif.C57_reported_flow_partial",
    "Verif.C57_ctm_double_count"
   ],
   "note": "Exact value proved for all four link types; cell-transmission links count exit-waiting vehicles twice, so the claim is false for them (witness proved)."
  },
  {
   "property": "C58",
   "status": "partial",
   "theorems": [
    "Verif.C58_fwj_never_overdraws_partial",
    "Verif.C58_false_for_grj"
   ],
   "note": "Proved for FWJ nodes; false for GRJ nodes (witness proved: the node step raises an exception)."
  },
  {
   "property": "C59",
   "status": "partial",
   "theorems": [
    "Verif.C59_fwj_serves_partial",
    "Verif.C59_false_for_grj"
   ],
   "note": "Proved for FWJ nodes; false for GRJ nodes (witness proved)."
  },
  {
   "property": "C60",
   "status": "partial",
   "theorems": [
    "Verif.C60_link_accepts_partial",
    "Verif.C60_false_for_origins"
   ],
   "note": "Proved for both in-out node models and all link models. False for origin nodes, which round the supply up at random: a CTM link then throws (witness proved)."
  },
  {
   "property": "C61",
   "status": "partial",
   "theorems": [
    "Verif.C61_adaptive_share_partial",
    "Verif.C61_ratio_leaks"
   ],
   "note": "Proved when no destination has its own ratio. False otherwise: the ratio of one destination stays in force for the ones after it (witness proved)."
  },
  {
   "property": "C62",
   "status": "partial",
   "theorems": [
    "Verif.C62_overtaking_at_origin",
    "Verif.C62_order_within_interval_partial"
   ],
   "note": "The claim is false of the code: each release shuffles the whole origin queue, including vehicles left from earlier releases (witness run proved). Between releases the queue is served in order (C26)."
  },
  {
   "property": "C63",
   "status": "partial",
   "theorems": [
    "Verif.C63_without_turn_costs_partial",
    "Verif.C63_turn_costs_not_optimal"
   ],
   "note": "False of the code (witness): one label per node cannot represent turn costs. Proved without turn costs."
  },
  {
   "property": "C64",
   "status": "proved",
   "theorems": [
    "Verif.C64_node_file",
    "Verif.C64_node_number_too_large"
   ],
   "note": ""
  },
  {
   "property": "C65",
   "status": "proved",
   "theorems": [
    "Verif.C65_graph_file",
    "Verif.C65_graph_file_error"
   ],
   "note": ""
  },
  {
   "property": "C66",
   "status": "proved",
   "theorems": [
    "Verif.C66_link_file"
   ],
   "note": ""
  },
  {
   "property": "C67",
   "status": "proved",
   "theorems": [
    "Verif.C67_demand_file"
   ],
   "note": ""
  },
  {
   "property": "C68",
   "status": "partial",
   "theorems": [
    "Verif.C68_best_departure_partial",
    "Verif.C68_departure_column",
    "Verif.C68_cost_taken_for_time"
   ],
   "note": "False of the code: the tree's distances (costs) are used as travel times. Proved: the choice is the first minimum of the disutility computed from these distances."
  },
  {
   "property": "C69",
   "status": "partial",
   "theorems": [
    "Verif.C69_volume_exact_partial",
    "Verif.C69_ctm_counts_exit_twice",
    "Verif.C69_ctm_double_count_witness"
   ],
   "note": "Proved for link queues and point queues. False of cell transmission links, which count vehicles waiting at the exit twice; the exact value they report is proved."
  },
  {
   "property": "C70",
   "status": "proved",
   "theorems": [
    "Verif.C70_waiting_times",
    "Verif.C70_waiting_split"
   ],
   "note": ""
  },
  {
   "property": "C71",
   "status": "partial",
   "theorems": [
    "Verif.C71_space_fractions_partial",
    "Verif.C71_supply_nonneg",
    "Verif.C71_negative_fraction_witness",
    "Verif.C71_lq_supply_uninitialised"
   ],
   "note": "Sum, perceived vehicles and room proved for every reachable state of unmodified links; the fractions are not negative below the jam densities only (witness above). A link queue asked for its room before its first interval reads uninitialised values."
  },
  {
   "property": "C72",
   "status": "proved",
   "theorems": [
    "Verif.C72_interval_goes_through"
   ],
   "note": ""
  },
  {
   "property": "C73",
   "status": "proved",
   "theorems": [
    "Verif.C73_label_in_bracket",
    "Verif.C73_no_label"
   ],
   "note": ""
  },
  {
   "property": "C74",
   "status": "proved",
   "theorems": [
    "Verif.C74_adaptive_at_origin",
    "Verif.C74_adaptive_at_link_end",
    "Verif.C74_origin_takes_shortest_path"
   ],
   "note": "Shortest path trees are any trees in the first two theorems and those of the queue-based algorithm (C37) in the third."
  },
  {
   "property": "C75",
   "status": "proved",
   "theorems": [
    "Verif.C75_configured_length",
    "Verif.C75_runs_until_empty",
    "Verif.C75_network_empty_at_end"
   ],
   "note": ""
  },
  {
   "property": "C76",
   "status": "proved",
   "theorems": [
    "Verif.C76_is_fifo_exact"
   ],
   "note": ""
  },
  {
   "property": "C77",
   "status": "proved",
   "theorems": [
    "Verif.C77_network_conservation",
    "Verif.C77_class_counters"
   ],
   "note": ""
  },
  {
   "property": "C78",
   "status": "proved",
   "theorems": [
    "Verif.C78_curves_count_vehicles"
   ],
   "note": ""
  },
  {
   "property": "C79",
   "status": "proved",
   "theorems": [
    "Verif.C79_junction",
    "Verif.C79_junction_curves",
    "Verif.C79_junction_never_fails"
   ],
   "note": ""
  },
  {
   "property": "C80",
   "status": "partial",
   "theorems": [
    "Verif.C80_supply_exceeded",
    "Verif.C80_intake_partial"
   ],
   "note": "False: vehicles are taken until the share is reached, so the last one of each entrance may exceed it (witness on a reachable state). Proved instead: the intake lies between the smaller of demand and supply and that plus one vehicle per entrance, and everybody passes if there is room for everybody."
  },
  {
   "property": "C81",
   "status": "proved",
   "theorems": [
    "Verif.C81_travel_stats"
   ],
   "note": ""
  },
  {
   "property": "C82",
   "status": "proved",
   "theorems": [
    "Verif.C82_release"
   ],
   "note": ""
  },
  {
   "property": "C83",
   "status": "partial",
   "theorems": [
    "Verif.C83_adaptive_share_partial",
    "Verif.C83_ratio_leaks"
   ],
   "note": "Proved for origins without ratios of single destinations; with them it is false: ratios stay in force for later destinations and for trucks (witness)."
  },
  {
   "property": "C84",
   "status": "proved",
   "theorems": [
    "Verif.C84_origin_node",
    "Verif.C84_origin_needs_point_queue"
   ],
   "note": "The node goes through only when its outgoing links are point queues; otherwise it dereferences a null pointer."
  },
  {
   "property": "C85",
   "status": "proved",
   "theorems": [
    "Verif.C85_destination_node"
   ],
   "note": ""
  },
  {
   "property": "C86",
   "status": "partial",
   "theorems": [
    "Verif.C86_adaptive_routed_partial",
    "Verif.C86_adaptive_vehicles_stranded",
    "Verif.C86_stranded_example"
   ],
   "note": "Proved when the adaptive part is switched on. With both configured ratios 0 and ratios of single destinations it is switched off and every adaptive vehicle stays in its origin's queue for ever (proved for every network)."
  },
  {
   "property": "C87",
   "status": "proved",
   "theorems": [
    "Verif.C87_new_ctm_link",
    "Verif.C87_modified_ctm_link",
    "Verif.C87_link_queue"
   ],
   "note": "A change to a negative number of lanes, which is not checked, is excluded."
  },
  {
   "property": "C88",
   "status": "proved",
   "theorems": [
    "Verif.C88_follows_path",
    "Verif.C88_next_link"
   ],
   "note": "Assumes that no path lists a link twice in a row."
  },
  {
   "property": "C89",
   "status": "partial",
   "theorems": [
    "Verif.C89_reported_value",
    "Verif.C89_experienced_partial",
    "Verif.C89_single_departures_partial",
    "Verif.C89_never_more_partial",
    "Verif.C89_underestimates"
   ],
   "note": "False of the code when several vehicles leave in one interval: get_time rounds down to the previous departure, so all but the last of them are reported too short a time. What is reported is characterised exactly for every pair of histories; it is the real time for the last vehicle of each group, and never more than the real time."
  },
  {
   "property": "C90",
   "status": "proved",
   "theorems": [
    "Verif.C90_get_path_tt",
    "Verif.C90_registered_path_tt",
    "Verif.C90_tables",
    "Verif.C90_tables_and_curves_agree",
    "Verif.C90_join",
    "Verif.C90_not_below_free_flow",
    "Verif.C90_late_departure",
    "Verif.C90_value_of_time",
    "Verif.C90_unchecked",
    "Verif.C90_rebuild_overflow"
   ],
   "note": "Negative departures, queries without tables and tables of a shorter earlier loading are not checked by the code and undefined (C90_unchecked, C90_rebuild_overflow)."
  },
  {
   "property": "C91",
   "status": "proved",
   "theorems": [
    "Verif.C91_link_tt",
    "Verif.C91_link_tt_late",
    "Verif.C91_link_inflow",
    "Verif.C91_link_inflow_checked"
   ],
   "note": "The value that is cut off is the one of C89."
  },
  {
   "property": "C92",
   "status": "partial",
   "theorems": [
    "Verif.C92_lowest_cost_partial",
    "Verif.C92_not_lowest"
   ],
   "note": "Proved when the tree covers as many intervals as the tables. update_tdsp_tree takes assign_frq * max_interval intervals even if the loading, and so the tables, went on longer; then the path may not be the cheapest (C92_not_lowest). Removing cycles from the path is not part of the statement."
  },
  {
   "property": "C93",
   "status": "proved",
   "theorems": [
    "Verif.C93_link",
    "Verif.C93_path"
   ],
   "note": ""
  },
  {
   "property": "C94",
   "status": "partial",
   "theorems": [
    "Verif.C94_as_computed",
    "Verif.C94_congested",
    "Verif.C94_dissipated_partial",
    "Verif.C94_other_types",
    "Verif.C94_capacity_missed"
   ],
   "note": "False of the code for cell-transmission links when the unit time is not one second: the capacity per interval is multiplied by the unit time once more. What is reported is characterised exactly for every unit time (C94_as_computed); link-queue links are refused."
  },
  {
   "property": "C95",
   "status": "partial",
   "theorems": [
    "Verif.C95_as_computed",
    "Verif.C95_marginal_partial",
    "Verif.C95_at_least",
    "Verif.C95_room_missed"
   ],
   "note": "As C94."
  },
  {
   "property": "C96",
   "status": "partial",
   "theorems": [
    "Verif.C96_average_partial"
   ],
   "note": "Missing: numbers of samples that do not divide the period into whole intervals, where the code reads the curves between intervals."
  },
  {
   "property": "C97",
   "status": "proved",
   "theorems": [
    "Verif.C97_curves_tell_what_happened",
    "Verif.C97_loaded",
    "Verif.C97_travel_time"
   ],
   "note": "For fewer than 10000 intervals, the range of the curves of the code."
  },
  {
   "property": "C98",
   "status": "partial",
   "theorems": [
    "Verif.C98_trees",
    "Verif.C98_departures",
    "Verif.C98_ratios_partial",
    "Verif.C98_first_links_empty",
    "Verif.C98_false_for_first_links"
   ],
   "note": "False of the code for links fed by an origin node: origin nodes do not record into the trees, so these links have no ratios although flow enters (proved with a witness). Proved for all other links."
  },
  {
   "property": "C99",
   "status": "proved",
   "theorems": [
    "Verif.C99_curves_tell_what_happened",
    "Verif.C99_loaded",
    "Verif.C99_travel_time"
   ],
   "note": "For fewer than 10000 intervals, the range of the curves of the code."
  }
 ]
}
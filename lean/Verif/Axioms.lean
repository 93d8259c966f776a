import Verif.Props

/-! Axioms of every theorem named in MANIFEST.json (only `propext`, `Classical.choice` and
`Quot.sound` may appear). -/

#print axioms Verif.C01_ids_unique_and_failed_calls_harmless
#print axioms Verif.C02_directed_connections
#print axioms Verif.C03_undirected_connections
#print axioms Verif.C04_neighbors_first_only
#print axioms Verif.C04_neighbors_incomplete
#print axioms Verif.C04_neighbors_exact_partial
#print axioms Verif.C04_neighbors_undirected
#print axioms Verif.C05_endpoints_immutable
#print axioms Verif.C05_endpoints_unknown
#print axioms Verif.C06_reverse_graph
#print axioms Verif.C07_stochastic_round
#print axioms Verif.C07_round_up_count
#print axioms Verif.C08_round_time
#print axioms Verif.C08_round_time_monotone
#print axioms Verif.C08_round_up_is_floor_when_large
#print axioms Verif.C09_curve_sorted
#print axioms Verif.C09_add_increment_total
#print axioms Verif.C09_in_order_total
#print axioms Verif.C10_get_result_partial
#print axioms Verif.C10_false_beyond_10000
#print axioms Verif.C10_get_result_monotone
#print axioms Verif.C100_no_interference
#print axioms Verif.C100_link_tt
#print axioms Verif.C100_link_speed
#print axioms Verif.C100_link_inflow
#print axioms Verif.C100_link_average
#print axioms Verif.C100_tables
#print axioms Verif.C100_path_tt
#print axioms Verif.C100_registered_path_tt
#print axioms Verif.C100_late
#print axioms Verif.C101_dissipated
#print axioms Verif.C101_other_types
#print axioms Verif.C101_free_flow
#print axioms Verif.C101_link_queue_seconds
#print axioms Verif.C102_cars
#print axioms Verif.C102_sound
#print axioms Verif.C102_late
#print axioms Verif.C102_trucks_partial
#print axioms Verif.C102_trucks_invalid_state
#print axioms Verif.C103_cars
#print axioms Verif.C103_late
#print axioms Verif.C103_trucks_partial
#print axioms Verif.C103_too_few_intervals
#print axioms Verif.C104_trees
#print axioms Verif.C104_departures
#print axioms Verif.C104_records
#print axioms Verif.C104_saved
#print axioms Verif.C104_ratios_partial
#print axioms Verif.C104_first_links_empty
#print axioms Verif.C104_not_installed
#print axioms Verif.C104_false_for_first_links
#print axioms Verif.C104_false_for_other_numbers
#print axioms Verif.C104_false_without_path
#print axioms Verif.C105_every_passenger_in_one_place
#print axioms Verif.C105_every_passenger_in_one_place_at_stops
#print axioms Verif.C106_trips_are_continuous
#print axioms Verif.C106_passengers_follow_their_paths
#print axioms Verif.C106_passengers_arrive_at_their_destinations
#print axioms Verif.C106_depends_on_unset_memory
#print axioms Verif.C107_curves_count_passengers
#print axioms Verif.C108_buses_within_capacity
#print axioms Verif.C108_who_gets_on_and_off
#print axioms Verif.C108_passed_stop_is_fatal
#print axioms Verif.C109_every_kth_bus_stops
#print axioms Verif.C11_get_time_partial
#print axioms Verif.C11_get_time_rounding_up
#print axioms Verif.C11_rounding_up_out_of_bounds
#print axioms Verif.C110_served_bus_leaves_only_when_done
#print axioms Verif.C110_small_scalar_blocks_buses
#print axioms Verif.C111_parking_lots
#print axioms Verif.C111_full_lot_is_faster
#print axioms Verif.C112_counters
#print axioms Verif.C112_deleted_passenger_is_read
#print axioms Verif.C113_walking_takes_its_time
#print axioms Verif.C113_nobody_walks_longer
#print axioms Verif.C114_stops_serve_in_order
#print axioms Verif.C115_slots_serve_in_order
#print axioms Verif.C115_shortest_queue
#print axioms Verif.C115_waiting_is_bounded
#print axioms Verif.C116_curves_count_charged_vehicles
#print axioms Verif.C116_waiting_times_are_recorded
#print axioms Verif.C116_recorded_times_are_too_short
#print axioms Verif.C117_charging_fills_the_battery
#print axioms Verif.C117_stations_work
#print axioms Verif.C117_no_queues_below_one
#print axioms Verif.C117_stations_fail_below_one
#print axioms Verif.C118_vehicles_under_way
#print axioms Verif.C118_queue_of_a_link
#print axioms Verif.C118_queues
#print axioms Verif.C118_negative_intervals
#print axioms Verif.C119_waiting_times
#print axioms Verif.C119_waiting_without_queue
#print axioms Verif.C12_inflow_additive
#print axioms Verif.C120_coverage
#print axioms Verif.C120_covered
#print axioms Verif.C121_covers_registered_links_partial
#print axioms Verif.C121_covers_or_throws_partial
#print axioms Verif.C121_link_of_an_origin_is_undefined
#print axioms Verif.C122_covers_links_partial
#print axioms Verif.C122_other_links_break_paths
#print axioms Verif.C122_fewer_registered_links_are_undefined
#print axioms Verif.C123_need_before_charging
#print axioms Verif.C123_need_after_charging
#print axioms Verif.C124_best_station
#print axioms Verif.C124_candidates_are_checked
#print axioms Verif.C124_candidates_out_of_reach_are_undefined
#print axioms Verif.C125_at_origins
#print axioms Verif.C125_at_link_ends
#print axioms Verif.C125_at_destinations
#print axioms Verif.C125_only_adaptive
#print axioms Verif.C125_at_own_stations_partial
#print axioms Verif.C125_new_vehicles_turn_away
#print axioms Verif.C126_trips_in_order
#print axioms Verif.C126_tours_end
#print axioms Verif.C126_whole_tour_partial
#print axioms Verif.C126_tours_are_cut_short
#print axioms Verif.C126_one_trip
#print axioms Verif.C126_at_destinations
#print axioms Verif.C127_one_place
#print axioms Verif.C127_counters
#print axioms Verif.C128_release
#print axioms Verif.C128_adjust
#print axioms Verif.C129_waits_long_enough
#print axioms Verif.C129_waits_no_longer
#print axioms Verif.C129_supply
#print axioms Verif.C129_kept_outside
#print axioms Verif.C129_clock_stops
#print axioms Verif.C13_travel_time_at_least_free_flow
#print axioms Verif.C13_robust_at_least_free_flow
#print axioms Verif.C130_driving_time
#print axioms Verif.C130_transit_time
#print axioms Verif.C130_park_and_ride_time
#print axioms Verif.C130_driving_fifo
#print axioms Verif.C131_driving_cost
#print axioms Verif.C131_transit_cost_partial
#print axioms Verif.C131_shorter_is_cheaper
#print axioms Verif.C131_park_and_ride_pays_no_tolls
#print axioms Verif.C132_initial_flows
#print axioms Verif.C132_initial_flows_exist
#print axioms Verif.C132_best_existing
#print axioms Verif.C133_fixed_conserves
#print axioms Verif.C133_fixed_succeeds
#print axioms Verif.C133_fixed_shares
#print axioms Verif.C133_existing_improves
#print axioms Verif.C134_departure_conserves
#print axioms Verif.C134_departure_succeeds
#print axioms Verif.C135_projection_conserves
#print axioms Verif.C135_projection_improves
#print axioms Verif.C135_projection_direction
#print axioms Verif.C135_large_step_fails
#print axioms Verif.C136_gap_partial
#print axioms Verif.C136_gap_fixed_partial
#print axioms Verif.C136_unused_path_ignored
#print axioms Verif.C137_shares
#print axioms Verif.C137_defined
#print axioms Verif.C137_odds
#print axioms Verif.C137_equal_disutility
#print axioms Verif.C138_spread_minutes
#print axioms Verif.C138_demand_of_paths
#print axioms Verif.C138_new_array_partial
#print axioms Verif.C138_new_array_overflows
#print axioms Verif.C139_logit_demand_partial
#print axioms Verif.C139_logit_total_partial
#print axioms Verif.C139_transit_off_makes_demand
#print axioms Verif.C14_shrink_keeps_oldest
#print axioms Verif.C14_shrink_loses_newest
#print axioms Verif.C14_shrink_within_limit_partial
#print axioms Verif.C140_transit_table
#print axioms Verif.C140_park_and_ride_table
#print axioms Verif.C140_driving_table_partial
#print axioms Verif.C140_trucks_bring_cars_and_get_lost
#print axioms Verif.C141_register_links
#print axioms Verif.C142_register_paths
#print axioms Verif.C143_register_mode_paths
#print axioms Verif.C143_register_all_paths
#print axioms Verif.C144_path_numbers
#print axioms Verif.C144_missing_set
#print axioms Verif.C145_sequences_partial
#print axioms Verif.C145_unchecked
#print axioms Verif.C146_arrays
#print axioms Verif.C146_link_files
#print axioms Verif.C146_turn_files
#print axioms Verif.C146_wrong_row
#print axioms Verif.C147_extracted_table
#print axioms Verif.C148_turns_partial
#print axioms Verif.C148_without_turns_partial
#print axioms Verif.C148_not_optimal
#print axioms Verif.C148_delays_inconsistent
#print axioms Verif.C149_initial_table
#print axioms Verif.C149_missing_paths
#print axioms Verif.C149_reassign
#print axioms Verif.C149_total_kept
#print axioms Verif.C15_pq_conservation
#print axioms Verif.C15_pq_never_fails
#print axioms Verif.C150_travel_partial
#print axioms Verif.C150_release
#print axioms Verif.C150_after_horizon
#print axioms Verif.C150_waiting_vehicle_skips_a_link
#print axioms Verif.C151_shares_partial
#print axioms Verif.C151_zero_share
#print axioms Verif.C151_next_destination
#print axioms Verif.C152_spillback
#print axioms Verif.C152_fractional_factor
#print axioms Verif.C153_bus_link_tt_partial
#print axioms Verif.C153_bus_time_partial
#print axioms Verif.C153_robust_partial
#print axioms Verif.C153_last_bus_standing
#print axioms Verif.C153_bunched_buses
#print axioms Verif.C153_buses_in_parts
#print axioms Verif.C154_no_overtaking_partial
#print axioms Verif.C154_buses_in_parts
#print axioms Verif.C155_no_interference
#print axioms Verif.C156_walking_link_tt
#print axioms Verif.C156_implicit_bus
#print axioms Verif.C157_registered
#print axioms Verif.C157_loading_unchanged
#print axioms Verif.C157_hours
#print axioms Verif.C157_trips_partial
#print axioms Verif.C157_trips_false_address_reused
#print axioms Verif.C158_one_interval
#print axioms Verif.C158_never_less
#print axioms Verif.C158_update_states
#print axioms Verif.C158_totals
#print axioms Verif.C158_trucks_emit_more
#print axioms Verif.C159_order_and_conservation
#print axioms Verif.C16_pq_fifo
#print axioms Verif.C16_pq_exact_delay
#print axioms Verif.C160_every_stop_served
#print axioms Verif.C160_dwelling_first
#print axioms Verif.C161_no_inconsistency
#print axioms Verif.C161_interval_goes_through
#print axioms Verif.C161_loop_waits_for_draw
#print axioms Verif.C162_time_on_point_queue
#print axioms Verif.C162_only_own_buses
#print axioms Verif.C163_cars_one_cell_partial
#print axioms Verif.C163_false_truck_jumps
#print axioms Verif.C164_ctm_interval
#print axioms Verif.C164_ctm_admit
#print axioms Verif.C164_pq
#print axioms Verif.C165_stops_on_cells
#print axioms Verif.C165_stops_on_intervals
#print axioms Verif.C165_too_close_refused
#print axioms Verif.C166_flow_at_exit_partial
#print axioms Verif.C166_false_travelling_not_counted
#print axioms Verif.C167_release
#print axioms Verif.C167_succeeds
#print axioms Verif.C167_before
#print axioms Verif.C167_adaptive_partial
#print axioms Verif.C167_false_share_of_trucks
#print axioms Verif.C168_first_minute
#print axioms Verif.C168_spread_partial
#print axioms Verif.C168_false_below_one
#print axioms Verif.C168_buses_partial
#print axioms Verif.C168_false_buses_lost
#print axioms Verif.C168_fifteen
#print axioms Verif.C169_counters
#print axioms Verif.C169_travel_stats_partial
#print axioms Verif.C169_false_trucks_as_buses
#print axioms Verif.C17_ctm_conservation_fifo
#print axioms Verif.C17_ctm_evolve_succeeds
#print axioms Verif.C17_zero_length_link_is_undefined
#print axioms Verif.C170_one_router
#print axioms Verif.C170_follows_path
#print axioms Verif.C170_next_link
#print axioms Verif.C170_arrives
#print axioms Verif.C170_adaptive
#print axioms Verif.C170_false_through_destination
#print axioms Verif.C171_one_lot_partial
#print axioms Verif.C171_false_turns_around
#print axioms Verif.C172_copy_partial
#print axioms Verif.C172_false_others
#print axioms Verif.C172_false_link_queue
#print axioms Verif.C172_false_path_lost
#print axioms Verif.C172_false_stands_still
#print axioms Verif.C173_update
#print axioms Verif.C173_ratio
#print axioms Verif.C173_always
#print axioms Verif.C174_range_partial
#print axioms Verif.C174_false_ratio_never_moves
#print axioms Verif.C174_false_prediction_ignores_signs
#print axioms Verif.C175_hooked
#print axioms Verif.C175_detour
#print axioms Verif.C175_none
#print axioms Verif.C175_demand
#print axioms Verif.C175_false_own_link
#print axioms Verif.C175_false_first_alternative
#print axioms Verif.C176_value
#print axioms Verif.C176_mean_partial
#print axioms Verif.C176_false_never_reset
#print axioms Verif.C176_false_number
#print axioms Verif.C176_false_many_points
#print axioms Verif.C177_measured
#print axioms Verif.C177_range
#print axioms Verif.C177_false_waiting_vehicle
#print axioms Verif.C178_estimation
#print axioms Verif.C178_false_optimisation_never_moves
#print axioms Verif.C179_first_partial
#print axioms Verif.C179_false_rounds
#print axioms Verif.C179_false_second
#print axioms Verif.C18_demand_supply_bounds
#print axioms Verif.C18_flow_between_cells
#print axioms Verif.C18_density_bound
#print axioms Verif.C180_releases
#print axioms Verif.C180_undefined
#print axioms Verif.C181_messages
#print axioms Verif.C181_no_detour
#print axioms Verif.C182_closed
#print axioms Verif.C182_unknown
#print axioms Verif.C182_twice
#print axioms Verif.C182_false_graph_keeps_link
#print axioms Verif.C182_false_not_hooked
#print axioms Verif.C183_trees
#print axioms Verif.C183_records_partial
#print axioms Verif.C183_not_installed
#print axioms Verif.C183_false_through_destinations
#print axioms Verif.C184_trees_partial
#print axioms Verif.C184_no_leak_partial
#print axioms Verif.C184_false_bus_links_twice
#print axioms Verif.C185_portions_partial
#print axioms Verif.C185_distance_partial
#print axioms Verif.C185_time_partial
#print axioms Verif.C185_no_more_runs
#print axioms Verif.C185_rows
#print axioms Verif.C185_false_return
#print axioms Verif.C186_check_path
#print axioms Verif.C186_cut_path
#print axioms Verif.C186_again
#print axioms Verif.C186_check_table
#print axioms Verif.C186_false_return
#print axioms Verif.C186_cut_off
#print axioms Verif.C187_on_the_way_partial
#print axioms Verif.C187_not_at_a_stop_partial
#print axioms Verif.C187_no_more_buses
#print axioms Verif.C187_false_after_demand
#print axioms Verif.C187_false_ring
#print axioms Verif.C188_driving
#print axioms Verif.C188_transit_partial
#print axioms Verif.C188_flags
#print axioms Verif.C188_false_same_number
#print axioms Verif.C189_nothing_to_do
#print axioms Verif.C189_generated_partial
#print axioms Verif.C189_covers_partial
#print axioms Verif.C189_false_bus_links
#print axioms Verif.C189_false_walking_links
#print axioms Verif.C189_false_links_do_not_follow
#print axioms Verif.C189_false_park_and_ride
#print axioms Verif.C19_lq_conservation_fifo
#print axioms Verif.C19_lq_release
#print axioms Verif.C190_lots
#print axioms Verif.C190_check_partial
#print axioms Verif.C190_false_outside
#print axioms Verif.C190_false_number_zero
#print axioms Verif.C190_false_pnr
#print axioms Verif.C191_right
#print axioms Verif.C191_cut
#print axioms Verif.C192_round_trip_partial
#print axioms Verif.C192_more_pairs
#print axioms Verif.C192_false_fewer_pairs
#print axioms Verif.C192_false_fewer_modes
#print axioms Verif.C192_false_stale_file
#print axioms Verif.C193_rows_partial
#print axioms Verif.C193_table_partial
#print axioms Verif.C193_false_origin
#print axioms Verif.C193_false_too_few_rows
#print axioms Verif.C194_files
#print axioms Verif.C194_other_modes
#print axioms Verif.C195_toll_file
#print axioms Verif.C195_error
#print axioms Verif.C195_too_few
#print axioms Verif.C195_none
#print axioms Verif.C195_two_classes
#print axioms Verif.C195_false_no_first_line
#print axioms Verif.C196_label_file
#print axioms Verif.C196_labels_partial
#print axioms Verif.C196_false_short_row
#print axioms Verif.C196_false_beyond_end
#print axioms Verif.C197_tracking
#print axioms Verif.C197_error
#print axioms Verif.C197_false_no_first_line
#print axioms Verif.C198_ratio_file
#print axioms Verif.C198_two_classes_partial
#print axioms Verif.C198_false_short_interval
#print axioms Verif.C199_attr_file_partial
#print axioms Verif.C199_error
#print axioms Verif.C199_false_fraction
#print axioms Verif.C20_ltm_conservation_fifo
#print axioms Verif.C200_places_partial
#print axioms Verif.C200_false_skipped
#print axioms Verif.C200_false_twice
#print axioms Verif.C200_false_kind
#print axioms Verif.C201_node_file
#print axioms Verif.C201_link_file
#print axioms Verif.C202_demand_partial
#print axioms Verif.C202_first_minute_partial
#print axioms Verif.C202_false_short_interval
#print axioms Verif.C202_false_long_interval
#print axioms Verif.C203_records
#print axioms Verif.C203_record_map
#print axioms Verif.C203_classes_add
#print axioms Verif.C203_false_car_times_ignore_trucks
#print axioms Verif.C203_zero_interval
#print axioms Verif.C204_numbers
#print axioms Verif.C204_hooks_partial
#print axioms Verif.C204_both_readings_partial
#print axioms Verif.C204_error
#print axioms Verif.C204_false_trailing_blank
#print axioms Verif.C205_sign_file
#print axioms Verif.C205_error
#print axioms Verif.C206_one_mode
#print axioms Verif.C206_cost
#print axioms Verif.C206_best_partial
#print axioms Verif.C206_false_park_and_ride
#print axioms Verif.C206_no_park_and_ride
#print axioms Verif.C206_single_park_and_ride_partial
#print axioms Verif.C206_false_losing_park_and_ride
#print axioms Verif.C207_passenger_stats_partial
#print axioms Verif.C207_false_queue_each_link
#print axioms Verif.C208_transit_paths
#print axioms Verif.C208_unknown_link
#print axioms Verif.C208_park_and_ride_paths_partial
#print axioms Verif.C208_false_drive_through_destination
#print axioms Verif.C208_false_short_row
#print axioms Verif.C209_bus_routes
#print axioms Verif.C209_numbers_of_stop_rows_ignored
#print axioms Verif.C209_false_no_nodes
#print axioms Verif.C209_first_row_counts
#print axioms Verif.C21_travel_time_bounds_partial
#print axioms Verif.C21_travel_time_monotone
#print axioms Verif.C21_travel_time_of_link
#print axioms Verif.C21_false_at_jam_density
#print axioms Verif.C210_station_file
#print axioms Verif.C210_error
#print axioms Verif.C210_no_stations
#print axioms Verif.C211_candidate_file
#print axioms Verif.C211_all_stations
#print axioms Verif.C211_round_trip
#print axioms Verif.C211_error
#print axioms Verif.C211_false_not_a_station
#print axioms Verif.C212_tour_files
#print axioms Verif.C212_read_tours
#print axioms Verif.C212_no_tours
#print axioms Verif.C212_false_odd
#print axioms Verif.C213_places_partial
#print axioms Verif.C213_whole
#print axioms Verif.C213_no_file
#print axioms Verif.C213_false_too_many
#print axioms Verif.C213_false_random
#print axioms Verif.C214_number_round_trip
#print axioms Verif.C214_false_small
#print axioms Verif.C215_flow_round_trip
#print axioms Verif.C215_false_missing_file
#print axioms Verif.C215_false_comments
#print axioms Verif.C216_waiting_file
#print axioms Verif.C216_station_waits
#print axioms Verif.C216_charged_file
#print axioms Verif.C217_check_partial
#print axioms Verif.C217_false_isolated
#print axioms Verif.C217_false_shared
#print axioms Verif.C218_hooked
#print axioms Verif.C218_incomplete
#print axioms Verif.C219_cost_files_partial
#print axioms Verif.C219_false_no_costs
#print axioms Verif.C22_fwj_flows
#print axioms Verif.C22_fwj_total
#print axioms Verif.C22_grj_no_supply
#print axioms Verif.C220_check_partial
#print axioms Verif.C220_false_absent
#print axioms Verif.C221_pairs_partial
#print axioms Verif.C221_ints_partial
#print axioms Verif.C221_floats_partial
#print axioms Verif.C221_zones_partial
#print axioms Verif.C221_bad_pairs_partial
#print axioms Verif.C221_bad_zones_partial
#print axioms Verif.C221_false_missing
#print axioms Verif.C222_demanded_partial
#print axioms Verif.C222_possible_partial
#print axioms Verif.C222_returns_partial
#print axioms Verif.C222_false_no_demand
#print axioms Verif.C223_dump
#print axioms Verif.C23_round_flow_partial
#print axioms Verif.C23_terminates
#print axioms Verif.C23_negative_supply_never_ends
#print axioms Verif.C23_negative_supply_reachable
#print axioms Verif.C24_node_transfer
#print axioms Verif.C24_node_conservation
#print axioms Verif.C25_node_curves
#print axioms Verif.C26_origin_release
#print axioms Verif.C27_destination_absorbs
#print axioms Verif.C27_receive
#print axioms Verif.C27_wrong_destination
#print axioms Verif.C28_factory_counts
#print axioms Verif.C28_remove
#print axioms Verif.C29_network_conservation
#print axioms Verif.C30_curves_count_vehicles
#print axioms Verif.C31_total_travel_time
#print axioms Verif.C31_travel_stats
#print axioms Verif.C32_normalized
#print axioms Verif.C32_uniform
#print axioms Verif.C32_negative
#print axioms Verif.C33_draw_in_bracket
#print axioms Verif.C33_register_after_normalize
#print axioms Verif.C34_follows_path
#print axioms Verif.C34_next_link
#print axioms Verif.C35_eliminate_cycles
#print axioms Verif.C35_idempotent
#print axioms Verif.C36_extract_path_fifo
#print axioms Verif.C36_extract_path_dijkstra
#print axioms Verif.C37_fifo_shortest_paths
#print axioms Verif.C37_unknown_destination
#print axioms Verif.C38_dijkstra_shortest_paths
#print axioms Verif.C38_stale_next_link
#print axioms Verif.C39_fifo_dijkstra_agree_partial
#print axioms Verif.C39_lifo_takes_cheapest_link
#print axioms Verif.C39_lifo_disagrees
#print axioms Verif.C40_tdsp_optimal
#print axioms Verif.C41_extracted_tdsp
#print axioms Verif.C42_path_sets
#print axioms Verif.C42_shared_node_duplicates
#print axioms Verif.C42_shared_origin_undefined
#print axioms Verif.C43_iterations_conserve
#print axioms Verif.C43_demand_is_served
#print axioms Verif.C43_shares
#print axioms Verif.C44_total_conserved_partial
#print axioms Verif.C44_nonneg_partial
#print axioms Verif.C44_negative_flow
#print axioms Verif.C45_conserves_partial
#print axioms Verif.C45_direction
#print axioms Verif.C45_creates_demand
#print axioms Verif.C45_large_step
#print axioms Verif.C46_gap
#print axioms Verif.C46_fixed_gap_partial
#print axioms Verif.C46_fixed_gap_ignores_unused
#print axioms Verif.C46_fixed_gap_undefined
#print axioms Verif.C47_records
#print axioms Verif.C47_record_map
#print axioms Verif.C48_registered
#print axioms Verif.C48_matrix
#print axioms Verif.C48_entries
#print axioms Verif.C48_portions
#print axioms Verif.C48_periods_checked
#print axioms Verif.C48_false_for_duplicate_paths
#print axioms Verif.C48_short_flows_undefined
#print axioms Verif.C49_every_line_means_something
#print axioms Verif.C49_lookup_partial
#print axioms Verif.C49_numbers
#print axioms Verif.C49_default_never_used
#print axioms Verif.C49_slash_confuses
#print axioms Verif.C50_enough_rows_partial
#print axioms Verif.C50_short_file_hangs
#print axioms Verif.C50_short_file_repeats
#print axioms Verif.C50_nodes_end_iff
#print axioms Verif.C50_missing_graph_file_hangs
#print axioms Verif.C51_table
#print axioms Verif.C51_table_counts
#print axioms Verif.C52_classes_conserved
#print axioms Verif.C52_classes_apart
#print axioms Verif.C52_fifo_within_class
#print axioms Verif.C53_release
#print axioms Verif.C54_ends_partial
#print axioms Verif.C54_false_on_cycles
#print axioms Verif.C54_depends_on_numbers
#print axioms Verif.C55_one_interval
#print axioms Verif.C55_totals
#print axioms Verif.C55_output_period
#print axioms Verif.C56_round_trip
#print axioms Verif.C56_parallel_link_changed
#print axioms Verif.C56_unconnected_row_accepted
#print axioms Verif.C56_unconnected_first_row_undefined
#print axioms Verif.C57_reported_flow_partial
#print axioms Verif.C57_ctm_double_count
#print axioms Verif.C58_fwj_never_overdraws_partial
#print axioms Verif.C58_false_for_grj
#print axioms Verif.C59_fwj_serves_partial
#print axioms Verif.C59_false_for_grj
#print axioms Verif.C60_link_accepts_partial
#print axioms Verif.C60_false_for_origins
#print axioms Verif.C61_adaptive_share_partial
#print axioms Verif.C61_ratio_leaks
#print axioms Verif.C62_overtaking_at_origin
#print axioms Verif.C62_order_within_interval_partial
#print axioms Verif.C63_without_turn_costs_partial
#print axioms Verif.C63_turn_costs_not_optimal
#print axioms Verif.C64_node_file
#print axioms Verif.C64_node_number_too_large
#print axioms Verif.C65_graph_file
#print axioms Verif.C65_graph_file_error
#print axioms Verif.C66_link_file
#print axioms Verif.C67_demand_file
#print axioms Verif.C68_best_departure_partial
#print axioms Verif.C68_departure_column
#print axioms Verif.C68_cost_taken_for_time
#print axioms Verif.C69_volume_exact_partial
#print axioms Verif.C69_ctm_counts_exit_twice
#print axioms Verif.C69_ctm_double_count_witness
#print axioms Verif.C70_waiting_times
#print axioms Verif.C70_waiting_split
#print axioms Verif.C71_space_fractions_partial
#print axioms Verif.C71_supply_nonneg
#print axioms Verif.C71_negative_fraction_witness
#print axioms Verif.C71_lq_supply_uninitialised
#print axioms Verif.C72_interval_goes_through
#print axioms Verif.C73_label_in_bracket
#print axioms Verif.C73_no_label
#print axioms Verif.C74_adaptive_at_origin
#print axioms Verif.C74_adaptive_at_link_end
#print axioms Verif.C74_origin_takes_shortest_path
#print axioms Verif.C75_configured_length
#print axioms Verif.C75_runs_until_empty
#print axioms Verif.C75_network_empty_at_end
#print axioms Verif.C76_is_fifo_exact
#print axioms Verif.C77_network_conservation
#print axioms Verif.C77_class_counters
#print axioms Verif.C78_curves_count_vehicles
#print axioms Verif.C79_junction
#print axioms Verif.C79_junction_curves
#print axioms Verif.C79_junction_never_fails
#print axioms Verif.C80_supply_exceeded
#print axioms Verif.C80_intake_partial
#print axioms Verif.C81_travel_stats
#print axioms Verif.C82_release
#print axioms Verif.C83_adaptive_share_partial
#print axioms Verif.C83_ratio_leaks
#print axioms Verif.C84_origin_node
#print axioms Verif.C84_origin_needs_point_queue
#print axioms Verif.C85_destination_node
#print axioms Verif.C86_adaptive_routed_partial
#print axioms Verif.C86_adaptive_vehicles_stranded
#print axioms Verif.C86_stranded_example
#print axioms Verif.C87_new_ctm_link
#print axioms Verif.C87_modified_ctm_link
#print axioms Verif.C87_link_queue
#print axioms Verif.C88_follows_path
#print axioms Verif.C88_next_link
#print axioms Verif.C89_reported_value
#print axioms Verif.C89_experienced_partial
#print axioms Verif.C89_single_departures_partial
#print axioms Verif.C89_never_more_partial
#print axioms Verif.C89_underestimates
#print axioms Verif.C90_get_path_tt
#print axioms Verif.C90_registered_path_tt
#print axioms Verif.C90_tables
#print axioms Verif.C90_tables_and_curves_agree
#print axioms Verif.C90_join
#print axioms Verif.C90_not_below_free_flow
#print axioms Verif.C90_late_departure
#print axioms Verif.C90_value_of_time
#print axioms Verif.C90_unchecked
#print axioms Verif.C90_rebuild_overflow
#print axioms Verif.C91_link_tt
#print axioms Verif.C91_link_tt_late
#print axioms Verif.C91_link_inflow
#print axioms Verif.C91_link_inflow_checked
#print axioms Verif.C92_lowest_cost_partial
#print axioms Verif.C92_not_lowest
#print axioms Verif.C93_link
#print axioms Verif.C93_path
#print axioms Verif.C94_as_computed
#print axioms Verif.C94_congested
#print axioms Verif.C94_dissipated_partial
#print axioms Verif.C94_other_types
#print axioms Verif.C94_capacity_missed
#print axioms Verif.C95_as_computed
#print axioms Verif.C95_marginal_partial
#print axioms Verif.C95_at_least
#print axioms Verif.C95_room_missed
#print axioms Verif.C96_average_partial
#print axioms Verif.C97_curves_tell_what_happened
#print axioms Verif.C97_loaded
#print axioms Verif.C97_travel_time
#print axioms Verif.C98_trees
#print axioms Verif.C98_departures
#print axioms Verif.C98_ratios_partial
#print axioms Verif.C98_first_links_empty
#print axioms Verif.C98_false_for_first_links
#print axioms Verif.C99_curves_tell_what_happened
#print axioms Verif.C99_loaded
#print axioms Verif.C99_travel_time

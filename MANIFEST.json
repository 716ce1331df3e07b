{
 "claims": [
  {
   "property": "C01",
   "status": "proved",
   "theorems": [
    "Sampo.C01.construct_in_range",
    "Sampo.C01.operators_in_range",
    "Sampo.C01.construct_exact",
    "Sampo.C01.operators_exact",
    "Sampo.C01.floordiv_exact_or_error",
    "Sampo.C01.operators_monotone",
    "Sampo.C01.add_nonneg_duration",
    "Sampo.C01.is_inf_iff",
    "Sampo.C01.add_assoc_nonneg"
   ],
   "note": ""
  },
  {
   "property": "C02",
   "status": "proved",
   "theorems": [
    "Sampo.C02.workers_conserved",
    "Sampo.C02.counts_never_negative",
    "Sampo.C02.updates_succeed"
   ],
   "note": ""
  },
  {
   "property": "C03",
   "status": "proved",
   "theorems": [
    "Sampo.C03.capacity_never_exceeded",
    "Sampo.C03.reported_start_fits"
   ],
   "note": ""
  },
  {
   "property": "C04",
   "status": "proved",
   "theorems": [
    "Sampo.C04.start_is_earliest_release",
    "Sampo.C04.independent_start_is_latest_release"
   ],
   "note": ""
  },
  {
   "property": "C05",
   "status": "proved",
   "theorems": [
    "Sampo.C05.independent_works_exclusive"
   ],
   "note": ""
  },
  {
   "property": "C06",
   "status": "proved",
   "theorems": [
    "Sampo.C06.available_eq_capacity_minus_usage",
    "Sampo.C06.capacity_never_exceeded",
    "Sampo.C06.update_succeeds_iff_room",
    "Sampo.C06.validate_iff_room"
   ],
   "note": ""
  },
  {
   "property": "C07",
   "status": "proved",
   "theorems": [
    "Sampo.C07.found_slot_is_feasible"
   ],
   "note": ""
  },
  {
   "property": "C08",
   "status": "proved",
   "theorems": [
    "Sampo.C08.found_slot_is_earliest",
    "Sampo.C08.slot_search_terminates"
   ],
   "note": ""
  },
  {
   "property": "C09",
   "status": "partial",
   "theorems": [
    "Sampo.C09.starts_after_placed_predecessors_partial",
    "Sampo.C09.assigned_start_after_placed_predecessors",
    "Sampo.C09.assigned_duration_ignores_predecessors"
   ],
   "note": "False with an assigned duration (assigned_duration_ignores_predecessors); proved in all other cases, with and without an assigned start."
  },
  {
   "property": "C10",
   "status": "proved",
   "theorems": [
    "Sampo.C10.jit_every_work_once",
    "Sampo.C10.momentum_every_work_once",
    "Sampo.C10.jit_entry_iff"
   ],
   "note": ""
  },
  {
   "property": "C11",
   "status": "partial",
   "theorems": [
    "Sampo.C11.jit_respects_precedence",
    "Sampo.C11.jit_finish_after_start",
    "Sampo.C11.momentum_finish_after_start",
    "Sampo.C11.momentum_respects_precedence_partial",
    "Sampo.C11.momentum_positive_lag_in_chain_violated",
    "Sampo.C11.momentum_assigned_duration_violates"
   ],
   "note": "Full for the just-in-time timeline. For the momentum timeline proved without assigned durations and with non-positive lags inside chains; both excluded cases are refuted by concrete schedules."
  },
  {
   "property": "C12",
   "status": "proved",
   "theorems": [
    "Sampo.C12.jit_chain_in_order_by_one_team",
    "Sampo.C12.momentum_chain_in_order_by_one_team"
   ],
   "note": ""
  },
  {
   "property": "C13",
   "status": "proved",
   "theorems": [
    "Sampo.C13.durations_sum_to_assigned",
    "Sampo.C13.exactShare_fair",
    "Sampo.C13.durations_nonneg",
    "Sampo.C13.exact_durations_nonneg",
    "Sampo.C13.durations_proportional",
    "Sampo.C13.zero_volumes_equal"
   ],
   "note": ""
  },
  {
   "property": "C14",
   "status": "proved",
   "theorems": [
    "Sampo.C14.search_returns_best",
    "Sampo.C14.search_fails_iff",
    "Sampo.C14.search_raises_only_with_runner"
   ],
   "note": ""
  },
  {
   "property": "C15",
   "status": "proved",
   "theorems": [
    "Sampo.C15.borders_of_able_contractor",
    "Sampo.C15.no_team_otherwise",
    "Sampo.C15.length_test_exact"
   ],
   "note": ""
  },
  {
   "property": "C16",
   "status": "partial",
   "theorems": [
    "Sampo.C16.optimizers_stay_within",
    "Sampo.C16.chosen_contractor_enabled",
    "Sampo.C16.chosen_team_meets_requirements",
    "Sampo.C16.fully_fixed_team_partial",
    "Sampo.C16.fully_fixed_team_meets_requirements",
    "Sampo.C16.partly_fixed_team_partial",
    "Sampo.C16.identity_keeps_fixed",
    "Sampo.C16.lft_team_meets_requirements",
    "Sampo.C16.lft_accepts_iff",
    "Sampo.C16.fixed_counts_ignore_limits",
    "Sampo.C16.partly_fixed_fails",
    "Sampo.C16.fixed_count_overwritten"
   ],
   "note": "Full for LFT and randomized LFT and for list schedulers without fixed counts. With all counts fixed they are used exactly but are not bounded by requirement or pool (fixed_counts_ignore_limits) unless the timeline rejects over-demand; specifications fixing only some counts raise (partly_fixed_fails) or are overwritten (fixed_count_overwritten)."
  },
  {
   "property": "C17",
   "status": "partial",
   "theorems": [
    "Sampo.C17.accepted_is_executable_partial",
    "Sampo.C17.executable_is_accepted",
    "Sampo.C17.infinite_schedule_not_checked",
    "Sampo.C17.missing_kind_accepted",
    "Sampo.C17.mixed_team_accepted"
   ],
   "note": "All parts are proved for teams of one contractor. That a team has workers of every required kind is not checked by the code (missing_kind_accepted), and teams of several contractors are charged to the contractor of their first worker (mixed_team_accepted)."
  },
  {
   "property": "C18",
   "status": "proved",
   "theorems": [
    "Sampo.C18.rows_ordered",
    "Sampo.C18.rows_topological"
   ],
   "note": ""
  },
  {
   "property": "C19",
   "status": "proved",
   "theorems": [
    "Sampo.C19.error_iff_cycle",
    "Sampo.C19.levels_complete",
    "Sampo.C19.any_flattening_is_an_order",
    "Sampo.C19.levels_are_earliest"
   ],
   "note": ""
  },
  {
   "property": "C20",
   "status": "partial",
   "theorems": [
    "Sampo.C20.heft_partial",
    "Sampo.C20.heft_ranks_are_longest_paths",
    "Sampo.C20.lft_partial",
    "Sampo.C20.randomized_lft",
    "Sampo.C20.randomized_lft_ends",
    "Sampo.C20.topological_partial",
    "Sampo.C20.chain_priority_breaks_order"
   ],
   "note": "Randomized LFT: full. HEFT, LFT and topological prioritization: proved if priorities of chain heads agree with dependencies between chains; false otherwise even if priorities of works agree (chain_priority_breaks_order: a chain has the priority of its first work)."
  },
  {
   "property": "C21",
   "status": "proved",
   "theorems": [
    "Sampo.C21.corrected_priorities",
    "Sampo.C21.consistent_unchanged"
   ],
   "note": ""
  },
  {
   "property": "C22",
   "status": "proved",
   "theorems": [
    "Sampo.C22.WorkGraph.ok",
    "Sampo.C22.one_head",
    "Sampo.C22.collapse_preserves_dependencies",
    "Sampo.C22.error_iff_chain_cycle",
    "Sampo.C22.collapse_tables",
    "Sampo.C22.collapse_feeds_prioritization"
   ],
   "note": ""
  },
  {
   "property": "C23",
   "status": "partial",
   "theorems": [
    "Sampo.C23.reversed_orders_partial",
    "Sampo.C23.forward_inner_areas_partial",
    "Sampo.C23.forward_start_and_finish_swapped",
    "Sampo.C23.chains_are_missed"
   ],
   "note": "Proved for reversed start orders and for works strictly inside a forward order. False for forward orders, which the pipeline passes (forward_start_and_finish_swapped), and for works inside inseparable chains (chains_are_missed)."
  },
  {
   "property": "C24",
   "status": "proved",
   "theorems": [
    "Sampo.C24.mating_keeps_orders",
    "Sampo.C24.mating_keeps_validity",
    "Sampo.C24.crossover_keeps_order",
    "Sampo.C24.crossover_takes_both",
    "Sampo.C24.one_priority_no_crossover",
    "Sampo.C24.unsorted_orders_fail"
   ],
   "note": "For orders sorted by priority, as all generated orders are; other orders make mating raise (unsorted_orders_fail). With a single priority no crossover takes place (one_priority_no_crossover)."
  },
  {
   "property": "C25",
   "status": "proved",
   "theorems": [
    "Sampo.C25.mutation_keeps_validity",
    "Sampo.C25.group_mutation",
    "Sampo.C25.one_priority_no_mutation"
   ],
   "note": "The last priority group is never mutated, so with a single priority nothing happens (one_priority_no_mutation)."
  },
  {
   "property": "C26",
   "status": "partial",
   "theorems": [
    "Sampo.C26.mating_stays_within",
    "Sampo.C26.mutation_stays_within",
    "Sampo.C26.border_mutation_stays_within",
    "Sampo.C26.different_borders_can_break"
   ],
   "note": "Proved when resources are optimized or both parents have the same borders, which is an invariant of the genetic loop (C55.borders_kept); false otherwise (different_borders_can_break)."
  },
  {
   "property": "C27",
   "status": "partial",
   "theorems": [
    "Sampo.C27.order_check_exact",
    "Sampo.C27.contractor_check_exact",
    "Sampo.C27.borders_are_capacities_partial",
    "Sampo.C27.borders_mixed_up",
    "Sampo.C27.empty_order_accepted"
   ],
   "note": "Both checks are proved exact. That borders are the contractor's capacities is proved when every contractor lists all kinds in pool order; false otherwise (borders_mixed_up)."
  },
  {
   "property": "C28",
   "status": "partial",
   "theorems": [
    "Sampo.C28.serial_every_work_once",
    "Sampo.C28.serial_chains",
    "Sampo.C28.serial_respects_precedence_partial",
    "Sampo.C28.serial_within_capacity",
    "Sampo.C28.parallel_every_work_once",
    "Sampo.C28.parallel_chains",
    "Sampo.C28.parallel_finish_after_start",
    "Sampo.C28.parallel_respects_precedence_partial",
    "Sampo.C28.parallel_within_capacity_partial",
    "Sampo.C28.parallel_finishes",
    "Sampo.C28.parallel_completes",
    "Sampo.C28.independent_work_overtakes_predecessors",
    "Sampo.C28.fixed_counts_exceed_capacity",
    "Sampo.C28.infinite_work_truncates_schedule"
   ],
   "note": "Serial and parallel schemes are modelled on top of the momentum timeline model. Proved without further conditions: every decoded schedule has each work exactly once (parallel: when the run ends with nothing waiting), works of a chain are done back to back by one team, finish is not before start; the serial scheme never exceeds capacity. The parallel scheme respects precedence when no work is flagged independent, stays within capacity when worker counts are not overridden by a specification, and always finishes when no duration reaches infinity. Counterexamples show that each of these three conditions is needed: an independent work overtakes its predecessors, overridden counts exceed a contractor's capacity, an infinite duration leaves works out silently. Serial precedence additionally inherits the limits of C11 (assigned durations, positive lags inside a chain)."
  },
  {
   "property": "C29",
   "status": "partial",
   "theorems": [
    "Sampo.C29.dichotomy_within_borders",
    "Sampo.C29.dichotomy_near_minimum",
    "Sampo.C29.coordinate_descent_within_borders",
    "Sampo.C29.full_scan_within_borders",
    "Sampo.C29.average_within_borders",
    "Sampo.C29.average_extremes",
    "Sampo.C29.optimum_can_be_missed",
    "Sampo.C29.partly_fixed_team_fails"
   ],
   "note": "Borders proved for all optimizers and finish time functions. That full scan returns a minimizer is false (optimum_can_be_missed); dichotomy is proved to end at most one step from the minimum of a strictly unimodal function. A partly fixed team of two or more types makes every optimizer raise (partly_fixed_team_fails)."
  },
  {
   "property": "C30",
   "status": "partial",
   "theorems": [
    "Sampo.C30.search_terminates",
    "Sampo.C30.probed_deadline_met_partial",
    "Sampo.C30.outcome_is_closest_probe",
    "Sampo.C30.reachable_deadline_met",
    "Sampo.C30.search_succeeds",
    "Sampo.C30.all_resources_never_tried",
    "Sampo.C30.exact_minimum_lost",
    "Sampo.C30.specification_is_dropped"
   ],
   "note": "Proved for every probed level except the minimum-resources level finishing exactly at the deadline (exact_minimum_lost); with monotone execution times every deadline reachable at a level between 1.05 and 10000 is met; level 1 is never tried (all_resources_never_tried) and the user's specification is dropped (specification_is_dropped)."
  },
  {
   "property": "C31",
   "status": "partial",
   "theorems": [
    "Sampo.C31.round_trip_partial",
    "Sampo.C31.same_works",
    "Sampo.C31.order_can_change"
   ],
   "note": "Works, edges with lags and types, start and finish are proved to survive; that the works come back in the same order is false (order_can_change). The contents of work units are opaque."
  },
  {
   "property": "C32",
   "status": "proved",
   "theorems": [
    "Sampo.C32.exact_edges",
    "Sampo.C32.source_and_sink",
    "Sampo.C32.error_iff",
    "Sampo.C32.project"
   ],
   "note": ""
  },
  {
   "property": "C33",
   "status": "proved",
   "theorems": [
    "Sampo.C33.reachable_once_predecessors_first",
    "Sampo.C33.ends",
    "Sampo.C33.ends_iff"
   ],
   "note": ""
  },
  {
   "property": "C34",
   "status": "proved",
   "theorems": [
    "Sampo.C34.never_fails",
    "Sampo.C34.nodes_are_stages",
    "Sampo.C34.volume_conserved",
    "Sampo.C34.amounts_conserved",
    "Sampo.C34.stages_nonneg",
    "Sampo.C34.undivided_unchanged",
    "Sampo.C34.stages_form_chain",
    "Sampo.C34.only_finish_start",
    "Sampo.C34.edges_go_forward",
    "Sampo.C34.edges_realized",
    "Sampo.C34.dependencies_kept",
    "Sampo.C34.every_stage_reached",
    "Sampo.C34.competing_edges_fail",
    "Sampo.C34.names_of_split_work_change"
   ],
   "note": "Conservation, the chain of stages and the edge types hold for every run that returns a graph. That the run returns one, and that every edge is realized between the right stages, is proved for well-formed graphs (with lag optimization: no competing edges between the same two works; competing_edges_fail shows the KeyError otherwise). names_of_split_work_change records that the names of split works change in the given graph. Traversal of the new graph from its start is not modelled."
  },
  {
   "property": "C35",
   "status": "partial",
   "theorems": [
    "Sampo.C35.copy_same",
    "Sampo.C35.copy_works",
    "Sampo.C35.copied_fields",
    "Sampo.C35.delete_keeps_rest_partial",
    "Sampo.C35.delete_chain_partial",
    "Sampo.C35.copy_loses_priority",
    "Sampo.C35.work_not_deleted",
    "Sampo.C35.chain_not_deleted"
   ],
   "note": "Copying is proved (priority, description and display name are lost: copy_loses_priority). Deletion keeps the rest for works with finish-start edges only; the last work of a deleted chain stays (chain_not_deleted) and works with start-start or finish-finish edges are not deleted (work_not_deleted)."
  },
  {
   "property": "C36",
   "status": "partial",
   "theorems": [
    "Sampo.C36.order_respects",
    "Sampo.C36.work_graph_links",
    "Sampo.C36.work_graph_whole",
    "Sampo.C36.copy_reversed",
    "Sampo.C36.copy_not_equal"
   ],
   "note": "The processing order and the whole work graph are proved right for all acyclic block graphs. Copying a block graph is false: it reverses all dependencies (copy_reversed, copy_not_equal); to_work_graph reads the copy in the reversed direction as well, so its result is right."
  },
  {
   "property": "C37",
   "status": "proved",
   "theorems": [
    "Sampo.C37.winner_is_best",
    "Sampo.C37.all_asked",
    "Sampo.C37.auction_fails_iff",
    "Sampo.C37.result_is_best",
    "Sampo.C37.only_winner_changes",
    "Sampo.C37.starts_after_dependencies",
    "Sampo.C37.blocks_scheduled",
    "Sampo.C37.check_passes",
    "Sampo.C37.check_meaning"
   ],
   "note": ""
  },
  {
   "property": "C38",
   "status": "proved",
   "theorems": [
    "Sampo.C38.elimination_succeeds",
    "Sampo.C38.result_acyclic",
    "Sampo.C38.result_is_part",
    "Sampo.C38.removed_on_cycle",
    "Sampo.C38.acyclic_unchanged",
    "Sampo.C38.table_acyclic",
    "Sampo.C38.table_removed_on_cycle",
    "Sampo.C38.acyclic_table_unchanged"
   ],
   "note": ""
  },
  {
   "property": "C39",
   "status": "partial",
   "theorems": [
    "Sampo.C39.constructed_route_shortest",
    "Sampo.C39.unavailable_road_in_route",
    "Sampo.C39.distances_shortest_partial",
    "Sampo.C39.distance_of_last_road",
    "Sampo.C39.no_way_through_zero",
    "Sampo.C39.table_route_shortest_partial",
    "Sampo.C39.table_route_endless",
    "Sampo.C39.holders_by_distance"
   ],
   "note": "Constructed routes: proved for networks in which two nodes are joined by at most one road; false otherwise (unavailable_road_in_route). Tables: proved for such networks without roads of length zero; false otherwise (distance_of_last_road, no_way_through_zero); reading a route from the tables does not end if there is none (table_route_endless). Weights are natural numbers (no rounding)."
  },
  {
   "property": "C40",
   "status": "partial",
   "theorems": [
    "Sampo.C40.one_status_partial",
    "Sampo.C40.search_succeeds_partial",
    "Sampo.C40.transition_recorded_partial",
    "Sampo.C40.statuses_overlap",
    "Sampo.C40.change_too_short",
    "Sampo.C40.final_statuses_fail"
   ],
   "note": "Proved without costs of status changes, for all histories of placements: works needing different statuses of a zone never overlap, and every search ends with a time that can be occupied; recorded changes end at the start of the work and take their cost. With costs the property is false (statuses_overlap, change_too_short), and final statuses make scheduling raise (final_statuses_fail)."
  },
  {
   "property": "C41",
   "status": "partial",
   "theorems": [
    "Sampo.C41.stock_not_exceeded",
    "Sampo.C41.road_not_overcrowded",
    "Sampo.C41.delivery_in_time",
    "Sampo.C41.delivery_chosen",
    "Sampo.C41.delivery_made",
    "Sampo.C41.needs_covered_partial",
    "Sampo.C41.trip_as_booked_partial",
    "Sampo.C41.fleet_exceeded",
    "Sampo.C41.vehicles_overloaded",
    "Sampo.C41.roads_booked_earlier",
    "Sampo.C41.storage_overdrawn_large",
    "Sampo.C41.storage_overdrawn_part",
    "Sampo.C41.storage_overdrawn_order"
   ],
   "note": "Proved for every sequence of deliveries: stocks of depots are never exceeded, roads are never booked beyond their bandwidth, deliveries arrive not before the deadline and from a depot of the landscape, and a well equipped depot that has the material delivers it. trip_as_booked_partial: enough vehicles, roads booked during the trip. needs_covered_partial: platform storage covers the needs when works come in order and deliveries are all or nothing. The rest of the full claim is false of the code, with witnesses: vehicles of a depot are used twice (fleet_exceeded), carry more than they can (vehicles_overloaded), roads are booked at a time other than that of the trip (roads_booked_earlier), and the storage of a platform is overdrawn (storage_overdrawn_large, _part, _order)."
  },
  {
   "property": "C42",
   "status": "partial",
   "theorems": [
    "Sampo.C42.columns",
    "Sampo.C42.rows",
    "Sampo.C42.usage_exact",
    "Sampo.C42.peak_exact",
    "Sampo.C42.peaks_sum_exact",
    "Sampo.C42.cost_exact",
    "Sampo.C42.total_fails"
   ],
   "note": "Rows, columns, usage over time, peaks, sum of peaks and cost are exact for every schedule. The reported total per worker type (resources_sum) is not computed for any schedule with a worker: it reads an attribute workers do not have and raises (total_fails)."
  },
  {
   "property": "C43",
   "status": "partial",
   "theorems": [
    "Sampo.C43.made",
    "Sampo.C43.removals",
    "Sampo.C43.operations_partial",
    "Sampo.C43.append_lost",
    "Sampo.C43.iteration_incomplete",
    "Sampo.C43.empty_iteration_fails"
   ],
   "note": "Made lists, any number of removals with stateful conditions, lengths: proved. Histories of appends and removals are right as long as a removal keeps the last element or nothing (operations_partial). An element appended after the last one was removed is lost (append_lost); iterating leaves out the last element of every list (iteration_incomplete) and raises on the empty list (empty_iteration_fails)."
  },
  {
   "property": "C44",
   "status": "partial",
   "theorems": [
    "Sampo.C44.off_original",
    "Sampo.C44.auto_smaller",
    "Sampo.C44.auto_succeeds",
    "Sampo.C44.pipeline_done",
    "Sampo.C44.on_ignored",
    "Sampo.C44.on_not_restructured"
   ],
   "note": "Switched off (off_original) and automatic choice (auto_smaller, auto_succeeds, pipeline_done) are proved for every project. Switched on is false of the code: the pattern `case TRUE, FALSE` matches pairs only, so switched on behaves as switched off (on_ignored, on_not_restructured)."
  },
  {
   "property": "C45",
   "status": "partial",
   "theorems": [
    "Sampo.C45.answer_exact",
    "Sampo.C45.accepted_iff_partial",
    "Sampo.C45.accepted_teams",
    "Sampo.C45.refused_no_team",
    "Sampo.C45.check_fails"
   ],
   "note": "Every answer the check gives is right (answer_exact, accepted_teams, refused_no_team). It answers if all contractors have an entry for every required type (accepted_iff_partial); otherwise it may raise although a contractor can do each work (check_fails)."
  },
  {
   "property": "C46",
   "status": "proved",
   "theorems": [
    "Sampo.C46.not_negative",
    "Sampo.C46.empty_team",
    "Sampo.C46.estimated",
    "Sampo.C46.time_exact",
    "Sampo.C46.infinite_iff",
    "Sampo.C46.more_workers",
    "Sampo.C46.output_at_least",
    "Sampo.C46.productivity_set",
    "Sampo.C46.beyond_maximum",
    "Sampo.C46.nobody_is_fast"
   ],
   "note": ""
  },
  {
   "property": "C47",
   "status": "proved",
   "theorems": [
    "Sampo.C47.owns_bound",
    "Sampo.C47.owns_only",
    "Sampo.C47.generated_iff",
    "Sampo.C47.owns_exactly",
    "Sampo.C47.accepted"
   ],
   "note": ""
  },
  {
   "property": "C48",
   "status": "partial",
   "theorems": [
    "Sampo.C48.united_partial",
    "Sampo.C48.spans_stages",
    "Sampo.C48.succeeds",
    "Sampo.C48.unsplit_unchanged",
    "Sampo.C48.execution_time_kept",
    "Sampo.C48.numbered_by_name",
    "Sampo.C48.id_kept",
    "Sampo.C48.id_kept_same",
    "Sampo.C48.table_partial",
    "Sampo.C48.cost_lost",
    "Sampo.C48.id_may_change",
    "Sampo.C48.table_duration",
    "Sampo.C48.ids_merged",
    "Sampo.C48.ids_counted_twice"
   ],
   "note": "For ids in which the separator occurs only before stage numbers: one row per work, volume, start, finish, order by start, execution time, unsplit schedules (united_partial, spans_stages, execution_time_kept, unsplit_unchanged, table_partial). The id is kept if the last stage has the greatest number or if numbers are equal and the sort keeps their order (id_kept, id_kept_same). False of the code, with witnesses: cost is that of one stage (cost_lost), the id depends on the sort because restructuring gives all stages the same name (id_may_change), durations in the table are one too long for merged works (table_duration), ids containing the separator are merged or counted twice (ids_merged, ids_counted_twice)."
  },
  {
   "property": "C49",
   "status": "partial",
   "theorems": [
    "Sampo.C49.jit_accepts_over_demand",
    "Sampo.C49.jit_rejects_iff_above_double_partial",
    "Sampo.C49.momentum_rejects_over_demand"
   ],
   "note": "False for the just-in-time timeline (jit_accepts_over_demand: demands up to twice the pool pass because negative list indices wrap around); proved for the momentum timeline; exact rejection condition proved for just-in-time."
  },
  {
   "property": "C50",
   "status": "partial",
   "theorems": [
    "Sampo.C50.independent_after_earlier_partial",
    "Sampo.C50.later_work_overlaps_independent"
   ],
   "note": "False for works placed later (later_work_overlaps_independent); proved for works placed before the independent one."
  },
  {
   "property": "C51",
   "status": "proved",
   "theorems": [
    "Sampo.C51.jit_schedule_within_capacity",
    "Sampo.C51.momentum_schedule_within_capacity"
   ],
   "note": ""
  },
  {
   "property": "C52",
   "status": "proved",
   "theorems": [
    "Sampo.C52.execution_time_is_latest_finish",
    "Sampo.C52.without_graph_last_row_only"
   ],
   "note": ""
  },
  {
   "property": "C53",
   "status": "partial",
   "theorems": [
    "Sampo.C53.momentum_report",
    "Sampo.C53.momentum_finishes_first",
    "Sampo.C53.jit_report",
    "Sampo.C53.jit_finishes_first_partial",
    "Sampo.C53.jit_picks_later_finish"
   ],
   "note": "Proved on the momentum timeline. False on the just-in-time timeline (jit_picks_later_finish): its search adds the finish of the predecessors to the duration of the work (just_in_time_timeline.py:74-87, 107-109), so a contractor whose workers are free early is preferred over one that would finish earlier. Proved there for works whose team does not get free before the predecessors are done."
  },
  {
   "property": "C54",
   "status": "proved",
   "theorems": [
    "Sampo.C54.jit_delivers",
    "Sampo.C54.momentum_delivers",
    "Sampo.C54.lft_chooses_team",
    "Sampo.C54.lft_delivers_jit",
    "Sampo.C54.lft_delivers_momentum",
    "Sampo.C54.optimizers_answer",
    "Sampo.C54.generic_delivers_jit",
    "Sampo.C54.generic_delivers_momentum",
    "Sampo.C54.endless_work_fails",
    "Sampo.C54.negative_chain_lag_fails",
    "Sampo.C54.assigned_duration_fails"
   ],
   "note": ""
  },
  {
   "property": "C55",
   "status": "proved",
   "theorems": [
    "Sampo.C55.valid_is_accepted",
    "Sampo.C55.mating_valid",
    "Sampo.C55.mutation_valid",
    "Sampo.C55.offspring_valid",
    "Sampo.C55.borders_kept"
   ],
   "note": ""
  },
  {
   "property": "C56",
   "status": "proved",
   "theorems": [
    "Sampo.C56.never_worse_than_first",
    "Sampo.C56.best_of_all_evaluated",
    "Sampo.C56.empty_population_fails"
   ],
   "note": ""
  },
  {
   "property": "C57",
   "status": "proved",
   "theorems": [
    "Sampo.C57.deadline_met_if_reachable",
    "Sampo.C57.first_meets_deadline",
    "Sampo.C57.cheap_individual_can_be_lost"
   ],
   "note": ""
  },
  {
   "property": "C58",
   "status": "proved",
   "theorems": [
    "Sampo.C58.population_size",
    "Sampo.C58.all_initial_schedules_included",
    "Sampo.C58.at_least_every_initial_schedule",
    "Sampo.C58.small_population_can_miss"
   ],
   "note": ""
  },
  {
   "property": "C59",
   "status": "partial",
   "theorems": [
    "Sampo.C59.work_inserted",
    "Sampo.C59.plain_neighbours",
    "Sampo.C59.graph_inserted",
    "Sampo.C59.ids_simplified",
    "Sampo.C59.plain_neighbours_overlap",
    "Sampo.C59.no_neighbours_fails",
    "Sampo.C59.direct_link_fails",
    "Sampo.C59.first_id_random"
   ],
   "note": "Proved for neighbours given with lag and type and for graphs whose start is not linked to their finish. Plain neighbours get lag -1 and may overlap (plain_neighbours_overlap); empty neighbour lists and a direct start-finish link raise (no_neighbours_fails, direct_link_fails); numbering from 0 gives a random first id (first_id_random)."
  },
  {
   "property": "C60",
   "status": "partial",
   "theorems": [
    "Sampo.C60.auction_events",
    "Sampo.C60.downtime_partial",
    "Sampo.C60.downtime_counted_twice"
   ],
   "note": "Proved for agents that win all auctions (within the finite time range). False for agents that lose auctions: the same idle time is counted at every lost auction (downtime_counted_twice)."
  },
  {
   "property": "C61",
   "status": "partial",
   "theorems": [
    "Sampo.C61.orders_in_turn",
    "Sampo.C61.unchanged",
    "Sampo.C61.optimized_partial",
    "Sampo.C61.second_fails"
   ],
   "note": "Order optimizers, no optimizer, and one schedule optimizer are proved. With two or more schedule optimizers the code raises whenever there is a schedule, because the second is called without the node order (second_fails)."
  },
  {
   "property": "C62",
   "status": "partial",
   "theorems": [
    "Sampo.C62.critical_partial",
    "Sampo.C62.nearly_longest",
    "Sampo.C62.path_once",
    "Sampo.C62.reported",
    "Sampo.C62.reported_unchanged",
    "Sampo.C62.not_longest",
    "Sampo.C62.chain_omitted"
   ],
   "note": "Proved: the search ends and returns a path; no path of the project is better in time plus number of chains, so none of at least as many chains takes longer and none exceeds the result by more than its number of chains (critical_partial, nearly_longest); the user gets the last work of every chain of the path (reported), the path itself without inseparable works (reported_unchanged). False in general: PRIORITY_DELTA is added to every weight, so a path of many short works can be returned although another takes longer (not_longest); of a chain of inseparable works only the last is reported (chain_omitted)."
  },
  {
   "property": "C63",
   "status": "partial",
   "theorems": [
    "Sampo.C63.ends_partial",
    "Sampo.C63.result",
    "Sampo.C63.best_seen_partial",
    "Sampo.C63.genetic_keeps",
    "Sampo.C63.improves_heuristics",
    "Sampo.C63.genetic_start_fails",
    "Sampo.C63.no_plateau_never_ends",
    "Sampo.C63.heuristic_forgets",
    "Sampo.C63.swings_forever",
    "Sampo.C63.two_objectives_wrong"
   ],
   "note": "Proved for one objective and cycles of schedulers that keep the best (genetic schedulers without deadline do: genetic_keeps): the run ends (ends_partial) and nothing seen is better (best_seen_partial, improves_heuristics); for every cycle the result is the best of the last population after a plateau of the given size (result). False in general: a heuristic scheduler in the cycle discards what was found (heuristic_forgets), swinging fitness or a plateau of 0 never ends (swings_forever, no_plateau_never_ends), with two objectives a dominated chromosome or an IndexError results (two_objectives_wrong), a genetic starting scheduler always fails (genetic_start_fails)."
  },
  {
   "property": "C64",
   "status": "partial",
   "theorems": [
    "Sampo.C64.in_time_by_resources",
    "Sampo.C64.late_preferred_iff",
    "Sampo.C64.deadline_first_partial",
    "Sampo.C64.late_preferred",
    "Sampo.C64.zero_deadline_fails",
    "Sampo.C64.incorrect_last",
    "Sampo.C64.incorrect_last_cost_iff",
    "Sampo.C64.incorrect_preferred",
    "Sampo.C64.total_fails"
   ],
   "note": "Among schedules that meet the deadline the ranking is proved right, and a late schedule loses unless it needs fewer resources (deadline_first_partial); late_preferred_iff says exactly when it wins. False of the code: a late schedule is preferred if it saves resources by a larger factor than it is late (late_preferred); a chromosome that cannot be decoded is preferred to a schedule that costs more than the value of Time.inf() (incorrect_preferred). For time and peaks it comes last below that value (incorrect_last). SumOfResourcesFitness raises for every schedule with a worker (total_fails), both deadline functions raise for deadline 0."
  },
  {
   "property": "C65",
   "status": "partial",
   "theorems": [
    "Sampo.C65.table_to_graph",
    "Sampo.C65.acyclic_table_to_graph",
    "Sampo.C65.predecessor_meant",
    "Sampo.C65.leading_zeros_lose_link",
    "Sampo.C65.space_loses_link",
    "Sampo.C65.missing_lags_raise",
    "Sampo.C65.missing_lag_negative",
    "Sampo.C65.more_types_hang",
    "Sampo.C65.documented_columns_raise",
    "Sampo.C65.no_granular_names_raise",
    "Sampo.C65.change_without_history"
   ],
   "note": "Proved in full for tables whose cells have one element per link. False as stated in English for: ids with leading zeros (leading_zeros_lose_link), spaces after commas (space_loses_link), missing lags (missing_lags_raise, missing_lag_negative), more types than predecessors (more_types_hang), both options without history (change_without_history). Volumes, names and requirements of works are not modelled; decimal numbers stand for floats. documented_columns_raise: a table with only the documented columns raises, as the undocumented column model_name is evaluated even when it is empty; no_granular_names_raise: all modes but the plain one need the column granular_name, which the documentation calls optional. Whether a text of model_name can be evaluated and mapped is a parameter (readModel)."
  },
  {
   "property": "C66",
   "status": "partial",
   "theorems": [
    "Sampo.C66.links_with_history",
    "Sampo.C66.own_links_stay",
    "Sampo.C66.mixed_up",
    "Sampo.C66.own_link_given_up"
   ],
   "note": "Proved for all_connections=False with and without change_connections_info; in the default mode links of the table stay (own_links_stay). False with change_connections_info (own_link_given_up) and with both options (mixed_up: types and lags are assigned in the order of history). Needs the column granular_name (see C65)."
  },
  {
   "property": "C67",
   "status": "partial",
   "theorems": [
    "Sampo.C67.frame_not_made",
    "Sampo.C67.frame_raises",
    "Sampo.C67.round_trip_partial",
    "Sampo.C67.built_graph_round_trip_partial",
    "Sampo.C67.start_lag_lost"
   ],
   "note": "False as it stands: frame_not_made shows that to_frame raises for every work graph with a work, since it reads an entry volume_type that the dictionary of a work does not have. frame_raises: even if works are given such an attribute, reading the table raises, since the table has no column model_name and the program evaluates the empty text. round_trip_partial: with readable texts in such a column (everything else unchanged) the round trip gives the same works and the same edges between them, in order, plus an edge from the new start for works without a dependency; built_graph_round_trip_partial: for graphs built by the program the edges into every work are the same but for the id of the start. start_lag_lost: an edge from the start with a lag is not saved. Ids must be texts that table reading leaves alone (no commas, no leading zeros; see C65). Requirements, volumes, priorities and names are not modelled."
  },
  {
   "property": "C68",
   "status": "partial",
   "theorems": [
    "Sampo.C68.no_exception",
    "Sampo.C68.order_of_records",
    "Sampo.C68.linked_once",
    "Sampo.C68.links_are_sound",
    "Sampo.C68.met_works_are_linked",
    "Sampo.C68.finished_before",
    "Sampo.C68.overlapped",
    "Sampo.C68.inside",
    "Sampo.C68.majority",
    "Sampo.C68.one_overlap_decides",
    "Sampo.C68.equal_dates_count_twice"
   ],
   "note": "Proved: no_exception, order_of_records, linked_once, links_are_sound, met_works_are_linked, finished_before, overlapped, inside, majority (for works done once per site that never begin on the same day). False: the type is not that of most sites (one_overlap_decides: one overlap outweighs any number of finish-start sites), and works with equal dates count twice for the order of the table (equal_dates_count_twice). Dates are day numbers (texts YYYY-MM-DD compare in the same order), floats are rationals, rounding is a parameter. The lag is a share of a duration, but schedules take lags as hours."
  },
  {
   "property": "C69",
   "status": "partial",
   "theorems": [
    "Sampo.C69.cluster_works",
    "Sampo.C69.small_graph",
    "Sampo.C69.generated",
    "Sampo.C69.bottom_border_partial",
    "Sampo.C69.top_border_partial",
    "Sampo.C69.cluster_count_partial",
    "Sampo.C69.modes",
    "Sampo.C69.same_numbers_partial",
    "Sampo.C69.bottom_border_missed",
    "Sampo.C69.top_border_exceeded",
    "Sampo.C69.seed_does_not_decide"
   ],
   "note": "Proved for all outcomes of the random numbers: the loop ends, refused arguments are exactly those of the assertions, the graph is usable, the small graph has 30 to 50 vertices, clusters have the works asked for, and the three types link clusters as documented. False in the code: a bottom border up to 84 is missed when one cluster suffices, because the small graph is returned instead (bottom_border_missed); the top border is exceeded, the loop is left only after a round (top_border_exceeded; bound top + 127 or 164 proved); for k clusters there are k+1 or k+2 (cluster_count_partial); the small graph is made without the given generator, so the seed does not decide it (seed_does_not_decide)."
  },
  {
   "property": "C70",
   "status": "partial",
   "theorems": [
    "Sampo.C70.constructed",
    "Sampo.C70.dill_copy",
    "Sampo.C70.deepcopy_works_partial",
    "Sampo.C70.deepcopy_lost",
    "Sampo.C70.end_spares_others",
    "Sampo.C70.end_takes_shared_links"
   ],
   "note": "Proved for dill. Copies by copy.deepcopy and pickle have the same start, finish and works, but never any links: __setstate__ makes a temporary graph of the same nodes, whose destructor clears them (deepcopy_lost). Graph objects without common works are independent; a second object over the same works takes the links with it (end_takes_shared_links)."
  },
  {
   "property": "C71",
   "status": "partial",
   "theorems": [
    "Sampo.C71.inserted_partial",
    "Sampo.C71.nobody_waits",
    "Sampo.C71.own_start_endless",
    "Sampo.C71.at_finish_endless",
    "Sampo.C71.not_kept_lost",
    "Sampo.C71.static_graph_raises",
    "Sampo.C71.by_chance"
   ],
   "note": "Proved if the chosen candidate is a real successor and the inserted graph stays referred to. False otherwise: the start of the inserted graph is itself among the candidates, and if it is chosen the call never ends (always so at the finish); nothing waits for the inserted works, since the start and not the finish of the inserted graph is linked to the successor; an inserted graph nobody keeps loses its links; from_static_graph always raises, because deepcopy loses links."
  },
  {
   "property": "C72",
   "status": "partial",
   "theorems": [
    "Sampo.C72.answers_current_partial",
    "Sampo.C72.right_unique",
    "Sampo.C72.chain_answered",
    "Sampo.C72.neighbors_stale",
    "Sampo.C72.same_ids_mixed"
   ],
   "note": "Proved for all reads but neighbors, if all nodes have different ids. False for neighbors, which are never forgotten (neighbors_stale), and for nodes of different graphs with the same ids, which share one remembered chain (same_ids_mixed). Lists of links changed directly, as in delete_graph_node, are not covered."
  },
  {
   "property": "C73",
   "status": "partial",
   "theorems": [
    "Sampo.C73.already_enough",
    "Sampo.C73.requirements_kept_partial",
    "Sampo.C73.different_stay_different",
    "Sampo.C73.number_of_kinds_partial",
    "Sampo.C73.wanted_missed",
    "Sampo.C73.no_requirements_raises",
    "Sampo.C73.names_raise",
    "Sampo.C73.advanced_raises",
    "Sampo.C73.advanced_without_names"
   ],
   "note": "Proved: requirements change only by longer kinds, different kinds stay different, the number of kinds is between the old and the wanted one. False: as many kinds as wanted (wanted_missed); a graph without requirements (no_requirements_raises) and every request for more names raises, because all works carry one name (names_raise, advanced_raises)."
  },
  {
   "property": "C74",
   "status": "partial",
   "theorems": [
    "Sampo.C74.given_names_partial",
    "Sampo.C74.given_names_only",
    "Sampo.C74.default_names",
    "Sampo.C74.raises_iff",
    "Sampo.C74.bottom_missed",
    "Sampo.C74.borders_ignored"
   ],
   "note": "Proved: known names, each once, counts, top border, at least one material, exact failure condition. False: the bottom border, because names are drawn with repetition (bottom_missed), and borders without names are ignored (borders_ignored)."
  },
  {
   "property": "C75",
   "status": "partial",
   "theorems": [
    "Sampo.C75.uniform_inside",
    "Sampo.C75.uniform_int_partial",
    "Sampo.C75.uniform_int_all",
    "Sampo.C75.uniform_int_outside",
    "Sampo.C75.gaussian_inside",
    "Sampo.C75.gaussian_swapped",
    "Sampo.C75.gaussian_int_raises",
    "Sampo.C75.gaussian_int_partial",
    "Sampo.C75.gaussian_int_outside"
   ],
   "note": "Proved for reals of both intervals and for integers of uniform intervals with integer borders. False: integers of a uniform interval with other borders (uniform_int_outside) and of Gaussian intervals, whose borders are widened by 100000 (gaussian_int_outside) and raise if infinite, as by default (gaussian_int_raises)."
  },
  {
   "property": "C76",
   "status": "partial",
   "theorems": [
    "Sampo.C76.requirements_make_sense",
    "Sampo.C76.scaled",
    "Sampo.C76.no_length",
    "Sampo.C76.professions",
    "Sampo.C76.numbers_partial",
    "Sampo.C76.contractor_staffs",
    "Sampo.C76.one_set_missed",
    "Sampo.C76.border_exceeded",
    "Sampo.C76.negative_number"
   ],
   "note": "Proved: all requirements make sense, professions, numbers up to scatter, and a contractor of two sets or more staffs every work if normal random numbers are at least -9 (true of CPython's generator). False: numbers stay inside the borders (border_exceeded) and one set is enough (one_set_missed); a wide scatter can give negative numbers (negative_number)."
  },
  {
   "property": "C77",
   "status": "partial",
   "theorems": [
    "Sampo.C77.between",
    "Sampo.C77.static_mode",
    "Sampo.C77.new_estimator_infinite",
    "Sampo.C77.negative_is_instant",
    "Sampo.C77.uniform_raises",
    "Sampo.C77.not_repeatable",
    "Sampo.C77.set_for_contractor",
    "Sampo.C77.set_for_all"
   ],
   "note": "`between`, `static_mode`, `set_for_contractor` and `set_for_all` hold as stated for intervals with positive borders. Witnesses prove what is false: a new estimator's own intervals have swapped borders, so with random productivity every work takes infinitely long (`new_estimator_infinite`); a Gaussian interval without borders may give a negative productivity and then the work is instant (`negative_is_instant`); a uniform interval raises when random productivity is off (`uniform_raises`); estimates are not repeatable (`not_repeatable`)."
  },
  {
   "property": "C78",
   "status": "partial",
   "theorems": [
    "Sampo.C78.generated",
    "Sampo.C78.single_work_raises",
    "Sampo.C78.connected",
    "Sampo.C78.placed_once",
    "Sampo.C78.service_chain_nowhere",
    "Sampo.C78.dealt_evenly",
    "Sampo.C78.platform_capacity",
    "Sampo.C78.stock_for_all",
    "Sampo.C78.few_vehicles",
    "Sampo.C78.plain_fair",
    "Sampo.C78.double_roads",
    "Sampo.C78.nothing_carried"
   ],
   "note": "All parts are proved for two works or more and needs of at least two pieces. Witnesses prove what is false: a single work makes the generator raise (`single_work_raises`), chains beginning with a service work are on no platform (`service_chain_nowhere`), two places may be joined by two roads of different length and the distance table then has the longer one (`double_roads`), a material of which one piece is needed cannot be carried (`nothing_carried`)."
  },
  {
   "property": "C79",
   "status": "partial",
   "theorems": [
    "Sampo.C79.work_dictionary",
    "Sampo.C79.work_keys",
    "Sampo.C79.work_text_partial",
    "Sampo.C79.work_text_raises",
    "Sampo.C79.work_pickled",
    "Sampo.C79.worker_text_partial",
    "Sampo.C79.worker_numpy_raises",
    "Sampo.C79.worker_numpy_integer",
    "Sampo.C79.scheduled_work_text_partial",
    "Sampo.C79.schedule_text_partial",
    "Sampo.C79.schedule_again",
    "Sampo.C79.empty_schedule_raises",
    "Sampo.C79.contractor_text_partial",
    "Sampo.C79.dictionary_spent",
    "Sampo.C79.left_out_fields_are_empty"
   ],
   "note": "A work is restored exactly from its dictionary (`work_dictionary`), and from text if it needs no equipment and no objects (`work_text_partial`); otherwise writing raises (`work_text_raises`). Workers lose their productivity (`worker_text_partial`); scheduled works lose equipment, materials and object (`scheduled_work_text_partial`), everything else and the order of a schedule is kept (`schedule_text_partial`), and saving again gives the same text (`schedule_again`). False of the code, with proofs: a schedule without works cannot be loaded, a cost that is a `numpy.float64` makes saving raise, a dictionary can be loaded only once (`dictionary_spent`), a pickled work has no name and no description (`work_pickled`). Whatever dictionary is loaded, the fields left out of the data of a class come back empty (left_out_fields_are_empty)."
  },
  {
   "property": "C80",
   "status": "partial",
   "theorems": [
    "Sampo.C80.rows_show_works",
    "Sampo.C80.raises_iff",
    "Sampo.C80.model_name_shown_partial",
    "Sampo.C80.wrong_column",
    "Sampo.C80.more_parts_raise",
    "Sampo.C80.pure_rows",
    "Sampo.C80.dictionary",
    "Sampo.C80.ordered",
    "Sampo.C80.idx_not_row_number",
    "Sampo.C80.execution_time_partial",
    "Sampo.C80.execution_time_unordered",
    "Sampo.C80.dates",
    "Sampo.C80.infinite_date_raises"
   ],
   "note": "Proved as stated: rows show works (`rows_show_works`), ordering with a graph and lookup (`ordered`, `dictionary`), the table without service works (`pure_rows`), dates (`dates`). Parts of model names are under their names if all works have the same parts (`model_name_shown_partial`). False of the code, with proofs: works with other parts show values in wrong columns (`wrong_column`), a work with more parts than the first makes the construction raise (`raises_iff`, `more_parts_raise`), `idx` is not the number of the row (`idx_not_row_number`), without a graph the execution time is that of the last given work (`execution_time_unordered`), an unfinishable work has no date (`infinite_date_raises`)."
  },
  {
   "property": "C81",
   "status": "partial",
   "theorems": [
    "Sampo.C81.queue_links",
    "Sampo.C81.queues_valid",
    "Sampo.C81.queue_after_queue",
    "Sampo.C81.queue_parallel",
    "Sampo.C81.queues_in_turn",
    "Sampo.C81.queues_raise",
    "Sampo.C81.blocks_raise",
    "Sampo.C81.built_valid",
    "Sampo.C81.built_ends",
    "Sampo.C81.built_links"
   ],
   "note": "Proved for queues: valid graphs (`queues_valid`), exactly the expected links (`queue_links`), all of a queue after all of the previous (if no queue is empty: `queue_after_queue`, `queues_in_turn`), independence inside (`queue_parallel`). For blocks proved for what is built before the graph is returned: `built_valid`, `built_ends`, `built_links`. False of the code, with proofs: `generate_blocks` raises for every graph that has a block with works, as a log line reads an attribute that the kind of a block does not have (`blocks_raise`); an empty block breaks the chain of sequential blocks (example); too few numbers of blocks for the number of queues raise (`queues_raise`). Before Python 3.12 an empty queue raises too (not modelled)."
  },
  {
   "property": "C82",
   "status": "partial",
   "theorems": [
    "Sampo.C82.winner_predicted",
    "Sampo.C82.confidence_changes",
    "Sampo.C82.confidence_never_raised",
    "Sampo.C82.only_winner_changes",
    "Sampo.C82.like_manager",
    "Sampo.C82.result_worse_than_offers",
    "Sampo.C82.best_offer_loses",
    "Sampo.C82.stochastic_fails_iff",
    "Sampo.C82.free_first",
    "Sampo.C82.predicted_scheduler_next",
    "Sampo.C82.nearest_workers",
    "Sampo.C82.neural_only_winner",
    "Sampo.C82.neural_succeeds",
    "Sampo.C82.neural_not_best",
    "Sampo.C82.neural_may_fail"
   ],
   "note": "Proved: the weighted predictions (`winner_predicted`), confidence (`confidence_changes`, `confidence_never_raised`), refinement of the plain manager (`like_manager`), only the winner changes (`only_winner_changes`, `neural_only_winner`), when the auctions fail (`stochastic_fails_iff`, `neural_succeeds`), preferences of the neural manager (`free_first`, `predicted_scheduler_next`, `nearest_workers`). False of the code, with proofs: the delivered finish may be later than those other agents offer (`result_worse_than_offers`), the best offer may lose (`best_offer_loses`), the neural manager does not compare finishes (`neural_not_best`) and fails if nobody in the best group is near enough (`neural_may_fail`)."
  },
  {
   "property": "C83",
   "status": "proved",
   "theorems": [
    "Sampo.C83.within_capacity",
    "Sampo.C83.blocks_logged",
    "Sampo.C83.works_scheduled",
    "Sampo.C83.works_after_dependencies",
    "Sampo.C83.jit_precedence",
    "Sampo.C83.momentum_precedence",
    "Sampo.C83.manager_picks_agent"
   ],
   "note": ""
  },
  {
   "property": "C84",
   "status": "partial",
   "theorems": [
    "Sampo.C84.accepted_iff",
    "Sampo.C84.within_capacity_partial",
    "Sampo.C84.shared_contractor_found",
    "Sampo.C84.overuse_accepted",
    "Sampo.C84.shared_id_accepted",
    "Sampo.C84.infinite_block_accepted",
    "Sampo.C84.disabled_check_refuses"
   ],
   "note": "False as stated: blocks are validated one by one, so two blocks of an agent at the same time may use more workers than there are (overuse_accepted); contractors of two agents with the same id and other workers are not found (shared_id_accepted); a block that never finishes is not checked (infinite_block_accepted). Proved: what acceptance means exactly (accepted_iff), capacity if the blocks of an agent are carried out one after the other (within_capacity_partial), shared equal contractors are found. The check over all blocks that is commented out would refuse right schedules (disabled_check_refuses)."
  },
  {
   "property": "C85",
   "status": "partial",
   "theorems": [
    "Sampo.C85.timelines_only_chain",
    "Sampo.C85.timelines_old_team",
    "Sampo.C85.works_keep_times",
    "Sampo.C85.chain_keeps_team",
    "Sampo.C85.unchanged_without_chains",
    "Sampo.C85.precedence_without_chains_partial",
    "Sampo.C85.nothing_parallelized",
    "Sampo.C85.attribute_error",
    "Sampo.C85.chain_torn"
   ],
   "note": "False as stated: recalculated times are thrown away, so without inseparable chains the result is the old schedule (unchanged_without_chains, nothing_parallelized), which keeps precedence (precedence_without_chains_partial); with chains the later works of a chain get times of a timeline filled from the finish to the start while the first keeps its old times, which breaks precedence with both timelines (chain_torn); where a candidate with workers is accepted, an AttributeError is raised (attribute_error). The later works of a chain keep the team and the contractor of its first work (chain_keeps_team)."
  },
  {
   "property": "C86",
   "status": "partial",
   "theorems": [
    "Sampo.C86.found_not_earlier",
    "Sampo.C86.can_iff_found",
    "Sampo.C86.delivered_when_promised",
    "Sampo.C86.promise_kept",
    "Sampo.C86.refusal_justified_partial",
    "Sampo.C86.found_settled_partial",
    "Sampo.C86.found_settled_after_waiting",
    "Sampo.C86.found_too_early",
    "Sampo.C86.refused_though_there"
   ],
   "note": "Proved for all histories: both questions agree, the moment found is not earlier, a yes is kept without an exception. That a no is justified and that the moment found is settled is proved when the works of the platform served so far got their materials before the moment asked for (and, for the second, also whenever the search waited for the last event of the platform). Without that it is false: refused_though_there, found_too_early."
  },
  {
   "property": "C87",
   "status": "partial",
   "theorems": [
    "Sampo.C87.works_kept",
    "Sampo.C87.generated_between",
    "Sampo.C87.work_graph",
    "Sampo.C87.order_kept",
    "Sampo.C87.finish_generates_endless",
    "Sampo.C87.by_probability",
    "Sampo.C87.exactly_hits",
    "Sampo.C87.set_names_generate_nothing",
    "Sampo.C87.set_all_raises",
    "Sampo.C87.dummy_for_all_partial"
   ],
   "note": "False for the default generator: it looks works up by the attribute name, which is the word dummy for every work, so set_names_generate_nothing (probabilities set one by one for real names generate nothing) and set_all_raises (a dictionary without the key dummy raises KeyError for every graph with a work); dummy_for_all_partial: only an entry for dummy is used, for all works. For every other generator all claims hold if the finish is a service unit (works_kept, generated_between, work_graph, order_kept, by_probability, exactly_hits); finish_generates_endless: otherwise a work generated for the finish makes the construction of the graph endless. order_kept asks that every work comes before the finish, exactly_hits that volumes and workers use other random generators. Copied works lose priority and description (C35)."
  },
  {
   "property": "C88",
   "status": "partial",
   "theorems": [
    "Sampo.C88.default_right",
    "Sampo.C88.multi_right_partial",
    "Sampo.C88.set_productivity_lost",
    "Sampo.C88.estimator_ignored",
    "Sampo.C88.no_estimator",
    "Sampo.C88.default_population",
    "Sampo.C88.lft_population",
    "Sampo.C88.failed_heuristic_raises",
    "Sampo.C88.multi_population_drawn",
    "Sampo.C88.own_weights_raise",
    "Sampo.C88.heuristic_individuals_incorrect",
    "Sampo.C88.multi_population"
   ],
   "note": "Proved for all sequences of calls of the default backend (default_right), and of the multiprocessing one if nothing was set on the estimators (multi_right_partial). False: productivities and modes set on the estimator do not reach the processes (set_productivity_lost, estimator_ignored); without estimator the multiprocessing backend raises (no_estimator); one heuristic without a schedule makes the default first population raise (failed_heuristic_raises); the multiprocessing backend raises for weights the genetic scheduler accepts (own_weights_raise), and its individuals made from heuristics have the works in reverse order and no schedule (heuristic_individuals_incorrect). Random numbers of stochastic estimators and changes to objects after the pool was made are not modelled."
  },
  {
   "property": "C89",
   "status": "partial",
   "theorems": [
    "Sampo.C89.heft_order",
    "Sampo.C89.lft_order",
    "Sampo.C89.random_lft_order",
    "Sampo.C89.topological_order",
    "Sampo.C89.rules_answer",
    "Sampo.C89.jit_feasible",
    "Sampo.C89.momentum_feasible_partial",
    "Sampo.C89.lft_jit_schedules",
    "Sampo.C89.generic_jit_schedules",
    "Sampo.C89.lft_momentum_schedules",
    "Sampo.C89.generic_momentum_schedules",
    "Sampo.C89.agreeing_priorities_not_enough"
   ],
   "note": "Just-in-time timeline: proved as stated for priorities that agree with the dependencies between chains. Momentum timeline: proved without assigned durations and without positive lags inside a chain (both violate precedence, C11). False if only the priorities of works agree with the dependencies between works: agreeing_priorities_not_enough gives a schedule of HEFT in which a work starts before its predecessor is finished."
  },
  {
   "property": "C90",
   "status": "proved",
   "theorems": [
    "Sampo.C90.heft",
    "Sampo.C90.lft",
    "Sampo.C90.topological",
    "Sampo.C90.randomized_lft",
    "Sampo.C90.schedulers",
    "Sampo.C90.randomized_scheduler",
    "Sampo.C90.randomized_needs_agreement"
   ],
   "note": ""
  },
  {
   "property": "C91",
   "status": "partial",
   "theorems": [
    "Sampo.C91.tables_describe_project",
    "Sampo.C91.feasible_schedule_converts",
    "Sampo.C91.scheduler_result_converts",
    "Sampo.C91.mixed_up_kinds_reject_valid_schedule"
   ],
   "note": "Proved when all contractors list the same kinds of workers in the same order. mixed_up_kinds_reject_valid_schedule shows that the claim is false otherwise: contractor_borders is filled by position, so a valid schedule of an accepted project becomes a chromosome that fails the check. Zones are not modelled here."
  },
  {
   "property": "C92",
   "status": "partial",
   "theorems": [
    "Sampo.C92.generation_valid",
    "Sampo.C92.decoded_feasible",
    "Sampo.C92.decoding_ends",
    "Sampo.C92.decoding_completes",
    "Sampo.C92.free_hall_valid",
    "Sampo.C92.deadline_hall_valid",
    "Sampo.C92.free_schedules_feasible",
    "Sampo.C92.deadline_schedules_feasible",
    "Sampo.C92.free_schedules_complete",
    "Sampo.C92.deadline_schedules_complete",
    "Sampo.C92.mixed_up_kinds_exceed_capacity"
   ],
   "note": "Proved for contractors that list the same kinds of workers in the same order, graphs with dependencies only, numbers of workers not fixed in the specification, no work marked as independent and a first work without workers; a decoding is valid or some time has reached infinity, and without delays by materials and zones and with a bound on lags and durations it is valid and ends within a computed time (decoding_completes, free_schedules_complete, deadline_schedules_complete). mixed_up_kinds_exceed_capacity: with kinds in different orders an accepted chromosome is decoded to a schedule with more workers than the contractor has; for fixed numbers and independent works see C28. The serial scheme and zones are not part of the composition."
  },
  {
   "property": "C93",
   "status": "partial",
   "theorems": [
    "Sampo.C93.merge_updates",
    "Sampo.C93.set_item_replaces",
    "Sampo.C93.set_item_outside",
    "Sampo.C93.merge_one_item",
    "Sampo.C93.collects",
    "Sampo.C93.halve_splits",
    "Sampo.C93.other_item_replaced",
    "Sampo.C93.order_lost"
   ],
   "note": "Proved for lists with different keys, and for equal keys that exactly one item of the key changes. False for assignment when keys may be equal (another item is replaced) or the new value has another key (the order is lost); both proved by examples."
  },
  {
   "property": "C94",
   "status": "partial",
   "theorems": [
    "Sampo.C94.graph_built_iff",
    "Sampo.C94.matrix_shows_roads",
    "Sampo.C94.new_graph",
    "Sampo.C94.ids_found",
    "Sampo.C94.edges_once_partial",
    "Sampo.C94.neighbours_first_partial",
    "Sampo.C94.neighbours_remembered",
    "Sampo.C94.edges_remembered",
    "Sampo.C94.works_kept",
    "Sampo.C94.neighbours_at_creation_raise",
    "Sampo.C94.default_id_shared"
   ],
   "note": "The graph, the matrix and first readings of edges and neighbours are proved for every history. False: neighbours and edges are remembered at the first reading and stay as they were, even after reinit; a constructor with neighbours raises AttributeError; nodes created without an id share one id."
  },
  {
   "property": "C95",
   "status": "partial",
   "theorems": [
    "Sampo.C95.lft_executes_partial",
    "Sampo.C95.heft_executes_partial",
    "Sampo.C95.specification_of_divided_work_ignored",
    "Sampo.C95.urgent_work_breaks_edges"
   ],
   "note": "Proved for projects without inseparable edges and without a specification whose priorities agree with all edges or whose edges are all dependencies, if the project surely ends before infinity and materials and zones do not limit it. False otherwise, proved by examples: a specification for a work that is divided is ignored, since its first stage has another id; an urgent work after a start-start edge makes the schedule break a finish-finish edge."
  },
  {
   "property": "C96",
   "status": "partial",
   "theorems": [
    "Sampo.C96.jit_zones_partial",
    "Sampo.C96.momentum_zones_partial",
    "Sampo.C96.lft_jit_schedules_with_zones",
    "Sampo.C96.costs_break_zones_jit",
    "Sampo.C96.costs_break_zones_momentum",
    "Sampo.C96.chain_requirements_ignored"
   ],
   "note": "Proved for both timelines if changes of status cost nothing and for the zone requirements of the first work of a chain; for LFT on a just-in-time timeline also that a schedule is returned. False in general: with costs a work can start in the middle of an incompatible chain (costs_break_zones_jit, costs_break_zones_momentum), and the requirements of later works of a chain are ignored (chain_requirements_ignored)."
  },
  {
   "property": "C97",
   "status": "partial",
   "theorems": [
    "Sampo.C97.jit_served",
    "Sampo.C97.momentum_served",
    "Sampo.C97.jit_needs_covered_partial",
    "Sampo.C97.fleet_exceeded",
    "Sampo.C97.works_beside_each_other_overdraw"
   ],
   "note": "Proved for both timelines: one request per work, arrival at the start, stocks and roads (jit_served, momentum_served), for landscapes with roads of positive length, works that need no more than a platform can store, and bookings inside the calendar. Needs of platforms are covered on a just-in-time timeline if the works of a platform depend on each other and need one material each. False in general: fleets (fleet_exceeded) and platforms with works beside each other (works_beside_each_other_overdraw)."
  },
  {
   "property": "C98",
   "status": "partial",
   "theorems": [
    "Sampo.C98.stock_not_exceeded",
    "Sampo.C98.road_not_overcrowded",
    "Sampo.C98.delivery_in_time",
    "Sampo.C98.nearer_depot_preferred",
    "Sampo.C98.found_not_earlier",
    "Sampo.C98.delivered_when_promised",
    "Sampo.C98.nothing_needed",
    "Sampo.C98.delivered_when_found",
    "Sampo.C98.later_than_possible",
    "Sampo.C98.fleet_exceeded"
   ],
   "note": "Proved: stocks, roads, arrival, preference of nearer depots, promises. False: materials in time whenever a depot can bring them (later_than_possible: depots leaving at the same moment are not compared), and fleets (fleet_exceeded)."
  },
  {
   "property": "C99",
   "status": "partial",
   "theorems": [
    "Sampo.C99.decoded_respects",
    "Sampo.C99.free_schedules_respect",
    "Sampo.C99.deadline_schedules_respect",
    "Sampo.C99.costs_break_zones",
    "Sampo.C99.independent_works_raise"
   ],
   "note": "False if changes of status take time (costs_break_zones: works 1 and 2 overlap), and decoding raises an exception for works marked as independent that need the same zone (independent_works_raise), because they are placed without asking the zones. Proved for free changes of status and no independent works. The first chain is placed at the start time without asking and is assumed to need no zones."
  },
  {
   "property": "C100",
   "status": "partial",
   "theorems": [
    "Sampo.C100.mate_rows",
    "Sampo.C100.mutate_entries",
    "Sampo.C100.mutate_uses_draws",
    "Sampo.C100.bred_proper",
    "Sampo.C100.serial_without_zones",
    "Sampo.C100.serial_with_zones_raises"
   ],
   "note": "The operators are proved. Decoding in the serial scheme is false: MomentumTimeline.schedule returns None, the serial scheme asks the zone timeline for a start from None on, and with at least one zone that raises; serial_with_zones_raises proves that no chromosome of any landscape with zones can be decoded. Without zones the zone part has no influence (serial_without_zones)."
  },
  {
   "property": "C101",
   "status": "partial",
   "theorems": [
    "Sampo.C101.settings",
    "Sampo.C101.only_the_table",
    "Sampo.C101.fill_keeps_links",
    "Sampo.C101.fix_changes_links",
    "Sampo.C101.fill_without_effect",
    "Sampo.C101.no_links_raise",
    "Sampo.C101.history_needed",
    "Sampo.C101.graph_raises",
    "Sampo.C101.same_graph",
    "Sampo.C101.contractors_of_file",
    "Sampo.C101.contractors_without_ids",
    "Sampo.C101.generated_contractors",
    "Sampo.C101.contractors_needed",
    "Sampo.C101.estimator_adds_works",
    "Sampo.C101.estimator_ignored",
    "Sampo.C101.misplaced_id_loses_workers"
   ],
   "note": "The settings, the links for every combination of the two options, the contractors of lists and files, generated contractors and the works of a structure estimator are proved. False of the code, and proved as such: build_wg_and_contractors ignores the structure estimator; without contractors (the default), with an empty list or file, or with a data frame (a documented type) it always raises; a project given as a work graph raises in both methods; with fix or fill and no history (the default) both methods raise; fill makes no difference once fix is on (fix also adds links); a contractor file with the id as third column loses a type of workers and counts the id as workers."
  },
  {
   "property": "C102",
   "status": "partial",
   "theorems": [
    "Sampo.C102.momentum_prompt",
    "Sampo.C102.decoded_prompt",
    "Sampo.C102.free_schedules_prompt",
    "Sampo.C102.deadline_schedules_prompt",
    "Sampo.C102.followers_late",
    "Sampo.C102.jit_late"
   ],
   "note": "Proved for works that begin a chain, on a momentum timeline (works with needs must have workers and not begin the project) and for decoded schedules. False for the other works of a chain, whose materials nobody asks for before (followers_late), and for the list schedulers on a just-in-time timeline, whose search ignores the works before (jit_late)."
  },
  {
   "property": "C103",
   "status": "partial",
   "theorems": [
    "Sampo.C103.jit_independent_exclusive",
    "Sampo.C103.lft_independent_exclusive",
    "Sampo.C103.generic_independent_exclusive",
    "Sampo.C103.momentum_not_exclusive"
   ],
   "note": "Proved on the just-in-time timeline for every list scheduler (jit_independent_exclusive and its instances). False on the momentum timeline (momentum_not_exclusive): the search of an independent work respects the works placed before, but nothing keeps later works from its hours."
  },
  {
   "property": "C104",
   "status": "partial",
   "theorems": [
    "Sampo.C104.jit_valid_for_every_deadline",
    "Sampo.C104.jit_minimum_keeps_deadline",
    "Sampo.C104.jit_tried_level_keeps_deadline_partial",
    "Sampo.C104.minimum_keeps_deadline",
    "Sampo.C104.momentum_valid_partial",
    "Sampo.C104.lft_not_accelerated",
    "Sampo.C104.reachable_deadline_missed"
   ],
   "note": "Proved for generic base schedulers on a just-in-time timeline (jit_valid_for_every_deadline, jit_minimum_keeps_deadline, jit_tried_level_keeps_deadline_partial); on a momentum timeline a returned schedule is valid within the range of Time (momentum_valid_partial). False: a deadline that some level of resources keeps may be missed, because more resources may be slower (reachable_deadline_missed), and with LFT as base the levels have no effect (lft_not_accelerated)."
  },
  {
   "property": "C105",
   "status": "partial",
   "theorems": [
    "Sampo.C105.untouched_terms",
    "Sampo.C105.last_call_decides",
    "Sampo.C105.team_as_counts",
    "Sampo.C105.lft_jit_keeps_terms",
    "Sampo.C105.lft_jit_schedules_to_terms",
    "Sampo.C105.lft_momentum_keeps_terms",
    "Sampo.C105.generic_jit_keeps_terms_partial",
    "Sampo.C105.generic_jit_valid_partial",
    "Sampo.C105.generic_momentum_keeps_terms_partial",
    "Sampo.C105.follower_terms_have_no_effect",
    "Sampo.C105.follower_terms_not_kept",
    "Sampo.C105.momentum_given_time_fails"
   ],
   "note": "Proved for LFT on both timelines (on the just-in-time timeline with validity, exclusiveness of independent works and existence of a schedule), and for the generic schedulers when all or no worker numbers of a work are given. False and refuted: terms of works that follow another one inseparably are ignored (follower_terms_not_kept, follower_terms_have_no_effect); on the momentum timeline an assigned time can make a staffable project fail (momentum_given_time_fails); partly given numbers can be overwritten by the generic schedulers (C16.fixed_count_overwritten); independence on the momentum timeline is refuted in C103."
  },
  {
   "property": "C106",
   "status": "partial",
   "theorems": [
    "Sampo.C106.assigns",
    "Sampo.C106.even",
    "Sampo.C106.choice",
    "Sampo.C106.random_weights_positive",
    "Sampo.C106.schedules",
    "Sampo.C106.refuses",
    "Sampo.C106.schedules_momentum",
    "Sampo.C106.schedule_even",
    "Sampo.C106.schedule_even_momentum",
    "Sampo.C106.wrong_contractor_counted"
   ],
   "note": "Proved as stated when every contractor is able to do every work (choice, even, schedule_even, schedule_even_momentum); teams, validity and positive weights in general. False otherwise and refuted: the counter is increased at the index among the accepted contractors (lft/base.py:232), so works of one contractor are counted for another; for every n, n works that two contractors can do equally well all go to the one that already did n works alone (wrong_contractor_counted). Scores are rational numbers in the model, floats in the code."
  },
  {
   "property": "C107",
   "status": "partial",
   "theorems": [
    "Sampo.C107.optimizers_compose",
    "Sampo.C107.inner_areas_no_effect",
    "Sampo.C107.outside_area_raises",
    "Sampo.C107.whole_area_finish_first",
    "Sampo.C107.whole_area_breaks_precedence"
   ],
   "note": "(1)-(3) are proved. (4) is false: in every project whose finish is a work of its own, an area with all works puts the finish of the project first (the candidates of the swap look only at direct neighbours on the wrong side), so the momentum scheduler places it at the project start, before everything it depends on (whole_area_finish_first, with a concrete schedule in whole_area_breaks_precedence)."
  },
  {
   "property": "C108",
   "status": "partial",
   "theorems": [
    "Sampo.C108.refused_iff",
    "Sampo.C108.heft_executes_partial",
    "Sampo.C108.lft_executes_partial",
    "Sampo.C108.chain_entered_later",
    "Sampo.C108.other_links_ignored"
   ],
   "note": "Proved for projects whose chains are entered only at their heads (any priorities), and for all chains if the priorities are equal. Without this (2) is false: a work inside a chain that depends on a work of higher priority value is placed with its chain, before that work, and starts too early (chain_entered_later). Links other than finish-start and inseparable are ignored when lag optimization is switched on or off (other_links_ignored), so the theorems are about finish-start graphs. For LFT the works of a chain ask for the same worker types as its head and lags inside chains are not positive."
  },
  {
   "property": "C109",
   "status": "partial",
   "theorems": [
    "Sampo.C109.extremum_after_history",
    "Sampo.C109.drains_in_order",
    "Sampo.C109.decrease_unchanged",
    "Sampo.C109.decrease_changed_duplicates",
    "Sampo.C109.taken_twice"
   ],
   "note": "(1)-(3) are proved. (4) is false: decrease_key looks for the value with its new key, does not find the old item and adds the value again, after every history and for every changed key (decrease_changed_duplicates, taken_twice)."
  },
  {
   "property": "C110",
   "status": "proved",
   "theorems": [
    "Sampo.C110.search_ends",
    "Sampo.C110.search_rounds",
    "Sampo.C110.finds_minimum",
    "Sampo.C110.asks_inside",
    "Sampo.C110.no_tolerance_no_end",
    "Sampo.C110.constant_part_misleads"
   ],
   "note": ""
  },
  {
   "property": "C111",
   "status": "partial",
   "theorems": [
    "Sampo.C111.valid_schedule_passes_partial",
    "Sampo.C111.jit_validation_changes_nothing_partial",
    "Sampo.C111.momentum_validation_passes_partial",
    "Sampo.C111.different_requirements_rejected",
    "Sampo.C111.negative_lag_rejected"
   ],
   "note": "False without provisions: a chain whose works have different requirements (different_requirements_rejected) and negative lags (negative_lag_rejected) make validation raise for schedules that the scheduler itself makes. Proved for non-negative lags and chains of works that are alike; for the momentum timeline for runs within the range of time."
  },
  {
   "property": "C112",
   "status": "proved",
   "theorems": [
    "Sampo.C112.returns_valid_schedules",
    "Sampo.C112.validation_changes_nothing",
    "Sampo.C112.not_worse_than_heuristics"
   ],
   "note": ""
  },
  {
   "property": "C113",
   "status": "proved",
   "theorems": [
    "Sampo.C113.decoding_completes",
    "Sampo.C113.returns_valid_schedules"
   ],
   "note": ""
  },
  {
   "property": "C114",
   "status": "partial",
   "theorems": [
    "Sampo.C114.flatten_reads_all_values",
    "Sampo.C114.flatten_flat",
    "Sampo.C114.last_item_wins",
    "Sampo.C114.entry_per_item",
    "Sampo.C114.keys_once",
    "Sampo.C114.keys_in_order",
    "Sampo.C114.reverse_twice_partial",
    "Sampo.C114.equal_values_are_lost",
    "Sampo.C114.first_is_first"
   ],
   "note": "reverse_dictionary loses keys whenever two keys have the same value (equal_values_are_lost, for every such dictionary); reverse_twice_partial needs distinct values. The rest is proved in full."
  },
  {
   "property": "C115",
   "status": "proved",
   "theorems": [
    "Sampo.C115.parallel_executes",
    "Sampo.C115.serial_executes"
   ],
   "note": ""
  },
  {
   "property": "C116",
   "status": "proved",
   "theorems": [
    "Sampo.C116.tables_show_schedules",
    "Sampo.C116.heft_finishes",
    "Sampo.C116.lft_finishes",
    "Sampo.C116.genetic_finishes"
   ],
   "note": ""
  },
  {
   "property": "C117",
   "status": "proved",
   "theorems": [
    "Sampo.C117.builds",
    "Sampo.C117.heft_from_works",
    "Sampo.C117.lft_from_works",
    "Sampo.C117.genetic_from_works"
   ],
   "note": ""
  },
  {
   "property": "C118",
   "status": "partial",
   "theorems": [
    "Sampo.C118.one_hot_error",
    "Sampo.C118.one_hot",
    "Sampo.C118.rounds",
    "Sampo.C118.parallelism_partial",
    "Sampo.C118.not_determined",
    "Sampo.C118.parallelism_fails",
    "Sampo.C118.encode_fails",
    "Sampo.C118.longest_path_is_one",
    "Sampo.C118.degrees",
    "Sampo.C118.averages",
    "Sampo.C118.constrainedness_partial",
    "Sampo.C118.constrainedness_fails"
   ],
   "note": "False in the code, with proofs: encode_graph raises for every graph, because metric_longest_path calls the sorting function of the scheduler with two of its four arguments (encode_fails); with a correct call the loop of metric_longest_path would answer 1 for every graph with a dependency, since it takes the works from the end of the order (longest_path_is_one); metric_graph_parallelism_degree raises for every graph, because it compares works with 0 and GraphNode.__eq__ reads an attribute that numbers do not have (parallelism_fails); with a working comparison the degrees would depend on the order in which a set is iterated (not_determined). Proved: with a working comparison the loop over levels ends, counts no work twice in a level and misses no reachable work; eight degrees between 0 and 1 with the stated means; the other metrics; coding and decoding of indices. metric_resource_constrainedness (outside encode_graph) is proved for volumes that are numbers (constrainedness_partial) and raises for volumes of the declared type Time (constrainedness_fails)."
  },
  {
   "property": "C119",
   "status": "partial",
   "theorems": [
    "Sampo.C119.mapped_as_in_table",
    "Sampo.C119.there_and_back_partial",
    "Sampo.C119.shared_unique_name",
    "Sampo.C119.unknown_name_renamed",
    "Sampo.C119.get_never_answers",
    "Sampo.C119.columns"
   ],
   "note": "False in the code, with proofs: get never answers, as the result is not returned (get_never_answers); of names with the same unique name the inverse gives at most one back (shared_unique_name); a name outside the table that equals a unique name comes back as another name (unknown_name_renamed). Proved: the mapping and its inverse row by row, the way there and back for tables without repetitions, columns of names, mapping twice."
  },
  {
   "property": "C120",
   "status": "proved",
   "theorems": [
    "Sampo.C120.sampled",
    "Sampo.C120.error_iff",
    "Sampo.C120.similar_work",
    "Sampo.C120.similar_count"
   ],
   "note": ""
  },
  {
   "property": "C121",
   "status": "partial",
   "theorems": [
    "Sampo.C121.given_partial",
    "Sampo.C121.unknown_kinds_dropped",
    "Sampo.C121.documented_columns_ignored",
    "Sampo.C121.volumes_from_file_raise",
    "Sampo.C121.saved_partial"
   ],
   "note": "False in the code, with proofs: kinds of workers that the estimator does not name for any row are dropped without an error, and a work that needs only such workers becomes a service work (unknown_kinds_dropped); with the documented columns min_req and max_req alone the columns have no effect (documented_columns_ignored); volumes read from a file stay text and raise an exception as soon as a requirement is sound (volumes_from_file_raise). Proved: the exact requirements for tables with all three columns as dictionaries, and that saved requirements of known kinds come back."
  },
  {
   "property": "C122",
   "status": "partial",
   "theorems": [
    "Sampo.C122.works_partial",
    "Sampo.C122.documented_statuses_raise",
    "Sampo.C122.read_back"
   ],
   "note": "Proved in both directions for tables in which statuses are texts of dictionaries (works_partial). False in the code for dictionaries themselves, the documented type of required_statuses, and for empty cells: eval raises for anything that is not a text, and one such row makes the whole table fail (documented_statuses_raise). What to_frame puts together has volumes and priorities only (read_back)."
  },
  {
   "property": "C123",
   "status": "partial",
   "theorems": [
    "Sampo.C123.first_as_set",
    "Sampo.C123.again_partial",
    "Sampo.C123.estimator_unused",
    "Sampo.C123.generated_stay",
    "Sampo.C123.finish_partial",
    "Sampo.C123.finish_own",
    "Sampo.C123.again_fails",
    "Sampo.C123.finish_fails"
   ],
   "note": "Proved: settings in any order (first_as_set), any history if contractors are a list or set again (again_partial), finish if nothing it looks at was changed (finish_partial), and for all histories that finish does not raise and shows the first ones of its own schedules (finish_own). False in the code: contractors generated for the first graph are used for all later ones, so that a graph is refused that a new pipeline schedules (again_fails, generated_stay); finish reads graph, contractors and node orders of the input object when it is called, so that schedules are lost and shown with foreign graphs and contractors (finish_fails). The work estimator given to the pipeline does not reach the scheduler (estimator_unused)."
  },
  {
   "property": "C124",
   "status": "partial",
   "theorems": [
    "Sampo.C124.charged",
    "Sampo.C124.costs_partial",
    "Sampo.C124.prices_ignored",
    "Sampo.C124.copy_keeps",
    "Sampo.C124.teams",
    "Sampo.C124.teams_belong",
    "Sampo.C124.total",
    "Sampo.C124.total_named",
    "Sampo.C124.total_ignores",
    "Sampo.C124.prices_fail"
   ],
   "note": "Proved: costs are number times price times duration if prices are left at their default of ten times the mean productivity (costs_partial); exactly what is charged for all prices, and when making the team raises (charged); what a copy keeps (copy_keeps), whose workers a team has (teams, teams_belong), and the cost of a schedule (total, total_named). False in the code: Worker.copy does not pass the price on, and every scheduler makes teams of copies, so that prices set by contractors have no influence on any cost (prices_ignored, total_ignores, prices_fail)."
  },
  {
   "property": "C125",
   "status": "partial",
   "theorems": [
    "Sampo.C125.others_partial",
    "Sampo.C125.again_fails",
    "Sampo.C125.more_fails"
   ],
   "note": "Proved for works of the second call that are not linked to those of the first (others_partial). False in the code, for all inputs: a second call with the same works always raises (again_fails), and a second call with these and further works always gives a graph in which none of the works of the first call can be reached from the start, without an error (more_fails)."
  },
  {
   "property": "C126",
   "status": "partial",
   "theorems": [
    "Sampo.C126.recorded_partial",
    "Sampo.C126.singles",
    "Sampo.C126.lists_stay",
    "Sampo.C126.twice_fails",
    "Sampo.C126.lists_fail"
   ],
   "note": "Proved: the record is exact if no list object is handed over twice (recorded_partial), always for single deliveries as the timelines add them (singles); lists that are not the first ones of their material stay as they are (lists_stay). False in the code: add_deliveries keeps the caller's list itself, so that a list handed over for two materials mixes them (twice_fails) and later deliveries are added to the caller's list (lists_fail)."
  },
  {
   "property": "C127",
   "status": "partial",
   "theorems": [
    "Sampo.C127.platforms_iff",
    "Sampo.C127.platform_sound",
    "Sampo.C127.no_platform",
    "Sampo.C127.platform_partial",
    "Sampo.C127.platform_last",
    "Sampo.C127.holder_last",
    "Sampo.C127.holder_partial",
    "Sampo.C127.at_holder_fails",
    "Sampo.C127.holders_fail"
   ],
   "note": "Proved: the platforms (platforms_iff); the platform of a work that is at one node without holder (platform_partial), that a platform found is right (platform_sound), and exactly when there is none (no_platform); holders if no two share a node (holder_partial). False in the code: a work placed at a node with a holder has no platform, so that supplying it raises KeyError (at_holder_fails); of two holders at one node the first is never found (holders_fail)."
  }
 ]
}
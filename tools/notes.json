{
 "C49": {
  "status": "partial",
  "note": "False for the just-in-time timeline (jit_accepts_over_demand: demands up to twice the pool pass because negative list indices wrap around); proved for the momentum timeline; exact rejection condition proved for just-in-time."
 },
 "C50": {
  "status": "partial",
  "note": "False for works placed later (later_work_overlaps_independent); proved for works placed before the independent one."
 },
 "C09": {
  "status": "partial",
  "note": "False with an assigned duration (assigned_duration_ignores_predecessors); proved in all other cases, with and without an assigned start."
 },
 "C11": {
  "status": "partial",
  "note": "Full for the just-in-time timeline. For the momentum timeline proved without assigned durations and with non-positive lags inside chains; both excluded cases are refuted by concrete schedules."
 },
 "C16": {
  "status": "partial",
  "note": "Full for LFT and randomized LFT and for list schedulers without fixed counts. With all counts fixed they are used exactly but are not bounded by requirement or pool (fixed_counts_ignore_limits) unless the timeline rejects over-demand; specifications fixing only some counts raise (partly_fixed_fails) or are overwritten (fixed_count_overwritten)."
 },
 "C29": {
  "status": "partial",
  "note": "Borders proved for all optimizers and finish time functions. That full scan returns a minimizer is false (optimum_can_be_missed); dichotomy is proved to end at most one step from the minimum of a strictly unimodal function. A partly fixed team of two or more types makes every optimizer raise (partly_fixed_team_fails)."
 },
 "C30": {
  "status": "partial",
  "note": "Proved for every probed level except the minimum-resources level finishing exactly at the deadline (exact_minimum_lost); with monotone execution times every deadline reachable at a level between 1.05 and 10000 is met; level 1 is never tried (all_resources_never_tried) and the user's specification is dropped (specification_is_dropped)."
 },
 "C20": {
  "status": "partial",
  "note": "Randomized LFT: full. HEFT, LFT and topological prioritization: proved if priorities of chain heads agree with dependencies between chains; false otherwise even if priorities of works agree (chain_priority_breaks_order: a chain has the priority of its first work)."
 },
 "C31": {
  "status": "partial",
  "note": "Works, edges with lags and types, start and finish are proved to survive; that the works come back in the same order is false (order_can_change). The contents of work units are opaque."
 },
 "C17": {
  "status": "partial",
  "note": "All parts are proved for teams of one contractor. That a team has workers of every required kind is not checked by the code (missing_kind_accepted), and teams of several contractors are charged to the contractor of their first worker (mixed_team_accepted)."
 },
 "C23": {
  "status": "partial",
  "note": "Proved for reversed start orders and for works strictly inside a forward order. False for forward orders, which the pipeline passes (forward_start_and_finish_swapped), and for works inside inseparable chains (chains_are_missed)."
 },
 "C24": {
  "status": "proved",
  "note": "For orders sorted by priority, as all generated orders are; other orders make mating raise (unsorted_orders_fail). With a single priority no crossover takes place (one_priority_no_crossover)."
 },
 "C25": {
  "status": "proved",
  "note": "The last priority group is never mutated, so with a single priority nothing happens (one_priority_no_mutation)."
 },
 "C26": {
  "status": "partial",
  "note": "Proved when resources are optimized or both parents have the same borders, which is an invariant of the genetic loop (C55.borders_kept); false otherwise (different_borders_can_break)."
 },
 "C27": {
  "status": "partial",
  "note": "Both checks are proved exact. That borders are the contractor's capacities is proved when every contractor lists all kinds in pool order; false otherwise (borders_mixed_up)."
 },
 "C28": {
  "status": "partial",
  "note": "Serial and parallel schemes are modelled on top of the momentum timeline model. Proved without further conditions: every decoded schedule has each work exactly once (parallel: when the run ends with nothing waiting), works of a chain are done back to back by one team, finish is not before start; the serial scheme never exceeds capacity. The parallel scheme respects precedence when no work is flagged independent, stays within capacity when worker counts are not overridden by a specification, and always finishes when no duration reaches infinity. Counterexamples show that each of these three conditions is needed: an independent work overtakes its predecessors, overridden counts exceed a contractor's capacity, an infinite duration leaves works out silently. Serial precedence additionally inherits the limits of C11 (assigned durations, positive lags inside a chain)."
 },
 "C34": {
  "status": "proved",
  "note": "Conservation, the chain of stages and the edge types hold for every run that returns a graph. That the run returns one, and that every edge is realized between the right stages, is proved for well-formed graphs (with lag optimization: no competing edges between the same two works; competing_edges_fail shows the KeyError otherwise). names_of_split_work_change records that the names of split works change in the given graph. Traversal of the new graph from its start is not modelled."
 },
 "C35": {
  "status": "partial",
  "note": "Copying is proved (priority, description and display name are lost: copy_loses_priority). Deletion keeps the rest for works with finish-start edges only; the last work of a deleted chain stays (chain_not_deleted) and works with start-start or finish-finish edges are not deleted (work_not_deleted)."
 },
 "C59": {
  "status": "partial",
  "note": "Proved for neighbours given with lag and type and for graphs whose start is not linked to their finish. Plain neighbours get lag -1 and may overlap (plain_neighbours_overlap); empty neighbour lists and a direct start-finish link raise (no_neighbours_fails, direct_link_fails); numbering from 0 gives a random first id (first_id_random)."
 },
 "C40": {
  "status": "partial",
  "note": "Proved without costs of status changes, for all histories of placements: works needing different statuses of a zone never overlap, and every search ends with a time that can be occupied; recorded changes end at the start of the work and take their cost. With costs the property is false (statuses_overlap, change_too_short), and final statuses make scheduling raise (final_statuses_fail)."
 },
 "C36": {
  "status": "partial",
  "note": "The processing order and the whole work graph are proved right for all acyclic block graphs. Copying a block graph is false: it reverses all dependencies (copy_reversed, copy_not_equal); to_work_graph reads the copy in the reversed direction as well, so its result is right."
 },
 "C60": {
  "status": "partial",
  "note": "Proved for agents that win all auctions (within the finite time range). False for agents that lose auctions: the same idle time is counted at every lost auction (downtime_counted_twice)."
 },
 "C39": {
  "status": "partial",
  "note": "Constructed routes: proved for networks in which two nodes are joined by at most one road; false otherwise (unavailable_road_in_route). Tables: proved for such networks without roads of length zero; false otherwise (distance_of_last_road, no_way_through_zero); reading a route from the tables does not end if there is none (table_route_endless). Weights are natural numbers (no rounding)."
 },
 "C41": {
  "status": "partial",
  "note": "Proved for every sequence of deliveries: stocks of depots are never exceeded, roads are never booked beyond their bandwidth, deliveries arrive not before the deadline and from a depot of the landscape, and a well equipped depot that has the material delivers it. trip_as_booked_partial: enough vehicles, roads booked during the trip. needs_covered_partial: platform storage covers the needs when works come in order and deliveries are all or nothing. The rest of the full claim is false of the code, with witnesses: vehicles of a depot are used twice (fleet_exceeded), carry more than they can (vehicles_overloaded), roads are booked at a time other than that of the trip (roads_booked_earlier), and the storage of a platform is overdrawn (storage_overdrawn_large, _part, _order)."
 },
 "C42": {
  "status": "partial",
  "note": "Rows, columns, usage over time, peaks, sum of peaks and cost are exact for every schedule. The reported total per worker type (resources_sum) is not computed for any schedule with a worker: it reads an attribute workers do not have and raises (total_fails)."
 },
 "C43": {
  "status": "partial",
  "note": "Made lists, any number of removals with stateful conditions, lengths: proved. Histories of appends and removals are right as long as a removal keeps the last element or nothing (operations_partial). An element appended after the last one was removed is lost (append_lost); iterating leaves out the last element of every list (iteration_incomplete) and raises on the empty list (empty_iteration_fails)."
 },
 "C44": {
  "status": "partial",
  "note": "Switched off (off_original) and automatic choice (auto_smaller, auto_succeeds, pipeline_done) are proved for every project. Switched on is false of the code: the pattern `case TRUE, FALSE` matches pairs only, so switched on behaves as switched off (on_ignored, on_not_restructured)."
 },
 "C45": {
  "status": "partial",
  "note": "Every answer the check gives is right (answer_exact, accepted_teams, refused_no_team). It answers if all contractors have an entry for every required type (accepted_iff_partial); otherwise it may raise although a contractor can do each work (check_fails)."
 },
 "C61": {
  "status": "partial",
  "note": "Order optimizers, no optimizer, and one schedule optimizer are proved. With two or more schedule optimizers the code raises whenever there is a schedule, because the second is called without the node order (second_fails)."
 },
 "C48": {
  "status": "partial",
  "note": "For ids in which the separator occurs only before stage numbers: one row per work, volume, start, finish, order by start, execution time, unsplit schedules (united_partial, spans_stages, execution_time_kept, unsplit_unchanged, table_partial). The id is kept if the last stage has the greatest number or if numbers are equal and the sort keeps their order (id_kept, id_kept_same). False of the code, with witnesses: cost is that of one stage (cost_lost), the id depends on the sort because restructuring gives all stages the same name (id_may_change), durations in the table are one too long for merged works (table_duration), ids containing the separator are merged or counted twice (ids_merged, ids_counted_twice)."
 },
 "C62": {
  "status": "partial",
  "note": "Proved: the search ends and returns a path; no path of the project is better in time plus number of chains, so none of at least as many chains takes longer and none exceeds the result by more than its number of chains (critical_partial, nearly_longest); the user gets the last work of every chain of the path (reported), the path itself without inseparable works (reported_unchanged). False in general: PRIORITY_DELTA is added to every weight, so a path of many short works can be returned although another takes longer (not_longest); of a chain of inseparable works only the last is reported (chain_omitted)."
 },
 "C63": {
  "status": "partial",
  "note": "Proved for one objective and cycles of schedulers that keep the best (genetic schedulers without deadline do: genetic_keeps): the run ends (ends_partial) and nothing seen is better (best_seen_partial, improves_heuristics); for every cycle the result is the best of the last population after a plateau of the given size (result). False in general: a heuristic scheduler in the cycle discards what was found (heuristic_forgets), swinging fitness or a plateau of 0 never ends (swings_forever, no_plateau_never_ends), with two objectives a dominated chromosome or an IndexError results (two_objectives_wrong), a genetic starting scheduler always fails (genetic_start_fails)."
 },
 "C53": {
  "status": "partial",
  "note": "Proved on the momentum timeline. False on the just-in-time timeline (jit_picks_later_finish): its search adds the finish of the predecessors to the duration of the work (just_in_time_timeline.py:74-87, 107-109), so a contractor whose workers are free early is preferred over one that would finish earlier. Proved there for works whose team does not get free before the predecessors are done."
 },
 "C64": {
  "status": "partial",
  "note": "Among schedules that meet the deadline the ranking is proved right, and a late schedule loses unless it needs fewer resources (deadline_first_partial); late_preferred_iff says exactly when it wins. False of the code: a late schedule is preferred if it saves resources by a larger factor than it is late (late_preferred); a chromosome that cannot be decoded is preferred to a schedule that costs more than the value of Time.inf() (incorrect_preferred). For time and peaks it comes last below that value (incorrect_last). SumOfResourcesFitness raises for every schedule with a worker (total_fails), both deadline functions raise for deadline 0."
 },
 "C65": {
  "status": "partial",
  "note": "Proved in full for tables whose cells have one element per link. False as stated in English for: ids with leading zeros (leading_zeros_lose_link), spaces after commas (space_loses_link), missing lags (missing_lags_raise, missing_lag_negative), more types than predecessors (more_types_hang), both options without history (change_without_history). Volumes, names and requirements of works are not modelled; decimal numbers stand for floats. documented_columns_raise: a table with only the documented columns raises, as the undocumented column model_name is evaluated even when it is empty; no_granular_names_raise: all modes but the plain one need the column granular_name, which the documentation calls optional. Whether a text of model_name can be evaluated and mapped is a parameter (readModel)."
 },
 "C66": {
  "status": "partial",
  "note": "Proved for all_connections=False with and without change_connections_info; in the default mode links of the table stay (own_links_stay). False with change_connections_info (own_link_given_up) and with both options (mixed_up: types and lags are assigned in the order of history). Needs the column granular_name (see C65)."
 },
 "C67": {
  "status": "partial",
  "note": "False as it stands: frame_not_made shows that to_frame raises for every work graph with a work, since it reads an entry volume_type that the dictionary of a work does not have. frame_raises: even if works are given such an attribute, reading the table raises, since the table has no column model_name and the program evaluates the empty text. round_trip_partial: with readable texts in such a column (everything else unchanged) the round trip gives the same works and the same edges between them, in order, plus an edge from the new start for works without a dependency; built_graph_round_trip_partial: for graphs built by the program the edges into every work are the same but for the id of the start. start_lag_lost: an edge from the start with a lag is not saved. Ids must be texts that table reading leaves alone (no commas, no leading zeros; see C65). Requirements, volumes, priorities and names are not modelled."
 },
 "C68": {
  "status": "partial",
  "note": "Proved: no_exception, order_of_records, linked_once, links_are_sound, met_works_are_linked, finished_before, overlapped, inside, majority (for works done once per site that never begin on the same day). False: the type is not that of most sites (one_overlap_decides: one overlap outweighs any number of finish-start sites), and works with equal dates count twice for the order of the table (equal_dates_count_twice). Dates are day numbers (texts YYYY-MM-DD compare in the same order), floats are rationals, rounding is a parameter. The lag is a share of a duration, but schedules take lags as hours."
 },
 "C69": {
  "status": "partial",
  "note": "Proved for all outcomes of the random numbers: the loop ends, refused arguments are exactly those of the assertions, the graph is usable, the small graph has 30 to 50 vertices, clusters have the works asked for, and the three types link clusters as documented. False in the code: a bottom border up to 84 is missed when one cluster suffices, because the small graph is returned instead (bottom_border_missed); the top border is exceeded, the loop is left only after a round (top_border_exceeded; bound top + 127 or 164 proved); for k clusters there are k+1 or k+2 (cluster_count_partial); the small graph is made without the given generator, so the seed does not decide it (seed_does_not_decide)."
 },
 "C70": {
  "status": "partial",
  "note": "Proved for dill. Copies by copy.deepcopy and pickle have the same start, finish and works, but never any links: __setstate__ makes a temporary graph of the same nodes, whose destructor clears them (deepcopy_lost). Graph objects without common works are independent; a second object over the same works takes the links with it (end_takes_shared_links)."
 },
 "C71": {
  "status": "partial",
  "note": "Proved if the chosen candidate is a real successor and the inserted graph stays referred to. False otherwise: the start of the inserted graph is itself among the candidates, and if it is chosen the call never ends (always so at the finish); nothing waits for the inserted works, since the start and not the finish of the inserted graph is linked to the successor; an inserted graph nobody keeps loses its links; from_static_graph always raises, because deepcopy loses links."
 },
 "C72": {
  "status": "partial",
  "note": "Proved for all reads but neighbors, if all nodes have different ids. False for neighbors, which are never forgotten (neighbors_stale), and for nodes of different graphs with the same ids, which share one remembered chain (same_ids_mixed). Lists of links changed directly, as in delete_graph_node, are not covered."
 },
 "C73": {
  "status": "partial",
  "note": "Proved: requirements change only by longer kinds, different kinds stay different, the number of kinds is between the old and the wanted one. False: as many kinds as wanted (wanted_missed); a graph without requirements (no_requirements_raises) and every request for more names raises, because all works carry one name (names_raise, advanced_raises)."
 },
 "C74": {
  "status": "partial",
  "note": "Proved: known names, each once, counts, top border, at least one material, exact failure condition. False: the bottom border, because names are drawn with repetition (bottom_missed), and borders without names are ignored (borders_ignored)."
 },
 "C75": {
  "status": "partial",
  "note": "Proved for reals of both intervals and for integers of uniform intervals with integer borders. False: integers of a uniform interval with other borders (uniform_int_outside) and of Gaussian intervals, whose borders are widened by 100000 (gaussian_int_outside) and raise if infinite, as by default (gaussian_int_raises)."
 },
 "C76": {
  "status": "partial",
  "note": "Proved: all requirements make sense, professions, numbers up to scatter, and a contractor of two sets or more staffs every work if normal random numbers are at least -9 (true of CPython's generator). False: numbers stay inside the borders (border_exceeded) and one set is enough (one_set_missed); a wide scatter can give negative numbers (negative_number)."
 },
 "C77": {
  "status": "partial",
  "note": "`between`, `static_mode`, `set_for_contractor` and `set_for_all` hold as stated for intervals with positive borders. Witnesses prove what is false: a new estimator's own intervals have swapped borders, so with random productivity every work takes infinitely long (`new_estimator_infinite`); a Gaussian interval without borders may give a negative productivity and then the work is instant (`negative_is_instant`); a uniform interval raises when random productivity is off (`uniform_raises`); estimates are not repeatable (`not_repeatable`)."
 },
 "C78": {
  "status": "partial",
  "note": "All parts are proved for two works or more and needs of at least two pieces. Witnesses prove what is false: a single work makes the generator raise (`single_work_raises`), chains beginning with a service work are on no platform (`service_chain_nowhere`), two places may be joined by two roads of different length and the distance table then has the longer one (`double_roads`), a material of which one piece is needed cannot be carried (`nothing_carried`)."
 },
 "C79": {
  "status": "partial",
  "note": "A work is restored exactly from its dictionary (`work_dictionary`), and from text if it needs no equipment and no objects (`work_text_partial`); otherwise writing raises (`work_text_raises`). Workers lose their productivity (`worker_text_partial`); scheduled works lose equipment, materials and object (`scheduled_work_text_partial`), everything else and the order of a schedule is kept (`schedule_text_partial`), and saving again gives the same text (`schedule_again`). False of the code, with proofs: a schedule without works cannot be loaded, a cost that is a `numpy.float64` makes saving raise, a dictionary can be loaded only once (`dictionary_spent`), a pickled work has no name and no description (`work_pickled`). Whatever dictionary is loaded, the fields left out of the data of a class come back empty (left_out_fields_are_empty)."
 },
 "C80": {
  "status": "partial",
  "note": "Proved as stated: rows show works (`rows_show_works`), ordering with a graph and lookup (`ordered`, `dictionary`), the table without service works (`pure_rows`), dates (`dates`). Parts of model names are under their names if all works have the same parts (`model_name_shown_partial`). False of the code, with proofs: works with other parts show values in wrong columns (`wrong_column`), a work with more parts than the first makes the construction raise (`raises_iff`, `more_parts_raise`), `idx` is not the number of the row (`idx_not_row_number`), without a graph the execution time is that of the last given work (`execution_time_unordered`), an unfinishable work has no date (`infinite_date_raises`)."
 },
 "C81": {
  "status": "partial",
  "note": "Proved for queues: valid graphs (`queues_valid`), exactly the expected links (`queue_links`), all of a queue after all of the previous (if no queue is empty: `queue_after_queue`, `queues_in_turn`), independence inside (`queue_parallel`). For blocks proved for what is built before the graph is returned: `built_valid`, `built_ends`, `built_links`. False of the code, with proofs: `generate_blocks` raises for every graph that has a block with works, as a log line reads an attribute that the kind of a block does not have (`blocks_raise`); an empty block breaks the chain of sequential blocks (example); too few numbers of blocks for the number of queues raise (`queues_raise`). Before Python 3.12 an empty queue raises too (not modelled)."
 },
 "C82": {
  "status": "partial",
  "note": "Proved: the weighted predictions (`winner_predicted`), confidence (`confidence_changes`, `confidence_never_raised`), refinement of the plain manager (`like_manager`), only the winner changes (`only_winner_changes`, `neural_only_winner`), when the auctions fail (`stochastic_fails_iff`, `neural_succeeds`), preferences of the neural manager (`free_first`, `predicted_scheduler_next`, `nearest_workers`). False of the code, with proofs: the delivered finish may be later than those other agents offer (`result_worse_than_offers`), the best offer may lose (`best_offer_loses`), the neural manager does not compare finishes (`neural_not_best`) and fails if nobody in the best group is near enough (`neural_may_fail`)."
 },
 "C84": {
  "status": "partial",
  "note": "False as stated: blocks are validated one by one, so two blocks of an agent at the same time may use more workers than there are (overuse_accepted); contractors of two agents with the same id and other workers are not found (shared_id_accepted); a block that never finishes is not checked (infinite_block_accepted). Proved: what acceptance means exactly (accepted_iff), capacity if the blocks of an agent are carried out one after the other (within_capacity_partial), shared equal contractors are found. The check over all blocks that is commented out would refuse right schedules (disabled_check_refuses)."
 },
 "C85": {
  "status": "partial",
  "note": "False as stated: recalculated times are thrown away, so without inseparable chains the result is the old schedule (unchanged_without_chains, nothing_parallelized), which keeps precedence (precedence_without_chains_partial); with chains the later works of a chain get times of a timeline filled from the finish to the start while the first keeps its old times, which breaks precedence with both timelines (chain_torn); where a candidate with workers is accepted, an AttributeError is raised (attribute_error). The later works of a chain keep the team and the contractor of its first work (chain_keeps_team)."
 },
 "C86": {
  "status": "partial",
  "note": "Proved for all histories: both questions agree, the moment found is not earlier, a yes is kept without an exception. That a no is justified and that the moment found is settled is proved when the works of the platform served so far got their materials before the moment asked for (and, for the second, also whenever the search waited for the last event of the platform). Without that it is false: refused_though_there, found_too_early."
 },
 "C87": {
  "status": "partial",
  "note": "False for the default generator: it looks works up by the attribute name, which is the word dummy for every work, so set_names_generate_nothing (probabilities set one by one for real names generate nothing) and set_all_raises (a dictionary without the key dummy raises KeyError for every graph with a work); dummy_for_all_partial: only an entry for dummy is used, for all works. For every other generator all claims hold if the finish is a service unit (works_kept, generated_between, work_graph, order_kept, by_probability, exactly_hits); finish_generates_endless: otherwise a work generated for the finish makes the construction of the graph endless. order_kept asks that every work comes before the finish, exactly_hits that volumes and workers use other random generators. Copied works lose priority and description (C35)."
 },
 "C88": {
  "status": "partial",
  "note": "Proved for all sequences of calls of the default backend (default_right), and of the multiprocessing one if nothing was set on the estimators (multi_right_partial). False: productivities and modes set on the estimator do not reach the processes (set_productivity_lost, estimator_ignored); without estimator the multiprocessing backend raises (no_estimator); one heuristic without a schedule makes the default first population raise (failed_heuristic_raises); the multiprocessing backend raises for weights the genetic scheduler accepts (own_weights_raise), and its individuals made from heuristics have the works in reverse order and no schedule (heuristic_individuals_incorrect). Random numbers of stochastic estimators and changes to objects after the pool was made are not modelled."
 },
 "C89": {
  "status": "partial",
  "note": "Just-in-time timeline: proved as stated for priorities that agree with the dependencies between chains. Momentum timeline: proved without assigned durations and without positive lags inside a chain (both violate precedence, C11). False if only the priorities of works agree with the dependencies between works: agreeing_priorities_not_enough gives a schedule of HEFT in which a work starts before its predecessor is finished."
 },
 "C91": {
  "status": "partial",
  "note": "Proved when all contractors list the same kinds of workers in the same order. mixed_up_kinds_reject_valid_schedule shows that the claim is false otherwise: contractor_borders is filled by position, so a valid schedule of an accepted project becomes a chromosome that fails the check. Zones are not modelled here."
 },
 "C92": {
  "status": "partial",
  "note": "Proved for contractors that list the same kinds of workers in the same order, graphs with dependencies only, numbers of workers not fixed in the specification, no work marked as independent and a first work without workers; a decoding is valid or some time has reached infinity, and without delays by materials and zones and with a bound on lags and durations it is valid and ends within a computed time (decoding_completes, free_schedules_complete, deadline_schedules_complete). mixed_up_kinds_exceed_capacity: with kinds in different orders an accepted chromosome is decoded to a schedule with more workers than the contractor has; for fixed numbers and independent works see C28. The serial scheme and zones are not part of the composition."
 },
 "C93": {
  "status": "partial",
  "note": "Proved for lists with different keys, and for equal keys that exactly one item of the key changes. False for assignment when keys may be equal (another item is replaced) or the new value has another key (the order is lost); both proved by examples."
 },
 "C94": {
  "status": "partial",
  "note": "The graph, the matrix and first readings of edges and neighbours are proved for every history. False: neighbours and edges are remembered at the first reading and stay as they were, even after reinit; a constructor with neighbours raises AttributeError; nodes created without an id share one id."
 },
 "C95": {
  "status": "partial",
  "note": "Proved for projects without inseparable edges and without a specification whose priorities agree with all edges or whose edges are all dependencies, if the project surely ends before infinity and materials and zones do not limit it. False otherwise, proved by examples: a specification for a work that is divided is ignored, since its first stage has another id; an urgent work after a start-start edge makes the schedule break a finish-finish edge."
 },
 "C96": {
  "status": "partial",
  "note": "Proved for both timelines if changes of status cost nothing and for the zone requirements of the first work of a chain; for LFT on a just-in-time timeline also that a schedule is returned. False in general: with costs a work can start in the middle of an incompatible chain (costs_break_zones_jit, costs_break_zones_momentum), and the requirements of later works of a chain are ignored (chain_requirements_ignored)."
 },
 "C97": {
  "status": "partial",
  "note": "Proved for both timelines: one request per work, arrival at the start, stocks and roads (jit_served, momentum_served), for landscapes with roads of positive length, works that need no more than a platform can store, and bookings inside the calendar. Needs of platforms are covered on a just-in-time timeline if the works of a platform depend on each other and need one material each. False in general: fleets (fleet_exceeded) and platforms with works beside each other (works_beside_each_other_overdraw)."
 },
 "C98": {
  "status": "partial",
  "note": "Proved: stocks, roads, arrival, preference of nearer depots, promises. False: materials in time whenever a depot can bring them (later_than_possible: depots leaving at the same moment are not compared), and fleets (fleet_exceeded)."
 },
 "C99": {
  "status": "partial",
  "note": "False if changes of status take time (costs_break_zones: works 1 and 2 overlap), and decoding raises an exception for works marked as independent that need the same zone (independent_works_raise), because they are placed without asking the zones. Proved for free changes of status and no independent works. The first chain is placed at the start time without asking and is assumed to need no zones."
 },
 "C100": {
  "status": "partial",
  "note": "The operators are proved. Decoding in the serial scheme is false: MomentumTimeline.schedule returns None, the serial scheme asks the zone timeline for a start from None on, and with at least one zone that raises; serial_with_zones_raises proves that no chromosome of any landscape with zones can be decoded. Without zones the zone part has no influence (serial_without_zones)."
 },
 "C101": {
  "status": "partial",
  "note": "The settings, the links for every combination of the two options, the contractors of lists and files, generated contractors and the works of a structure estimator are proved. False of the code, and proved as such: build_wg_and_contractors ignores the structure estimator; without contractors (the default), with an empty list or file, or with a data frame (a documented type) it always raises; a project given as a work graph raises in both methods; with fix or fill and no history (the default) both methods raise; fill makes no difference once fix is on (fix also adds links); a contractor file with the id as third column loses a type of workers and counts the id as workers."
 },
 "C102": {
  "status": "partial",
  "note": "Proved for works that begin a chain, on a momentum timeline (works with needs must have workers and not begin the project) and for decoded schedules. False for the other works of a chain, whose materials nobody asks for before (followers_late), and for the list schedulers on a just-in-time timeline, whose search ignores the works before (jit_late)."
 },
 "C103": {
  "status": "partial",
  "note": "Proved on the just-in-time timeline for every list scheduler (jit_independent_exclusive and its instances). False on the momentum timeline (momentum_not_exclusive): the search of an independent work respects the works placed before, but nothing keeps later works from its hours."
 },
 "C104": {
  "status": "partial",
  "note": "Proved for generic base schedulers on a just-in-time timeline (jit_valid_for_every_deadline, jit_minimum_keeps_deadline, jit_tried_level_keeps_deadline_partial); on a momentum timeline a returned schedule is valid within the range of Time (momentum_valid_partial). False: a deadline that some level of resources keeps may be missed, because more resources may be slower (reachable_deadline_missed), and with LFT as base the levels have no effect (lft_not_accelerated)."
 },
 "C105": {
  "status": "partial",
  "note": "Proved for LFT on both timelines (on the just-in-time timeline with validity, exclusiveness of independent works and existence of a schedule), and for the generic schedulers when all or no worker numbers of a work are given. False and refuted: terms of works that follow another one inseparably are ignored (follower_terms_not_kept, follower_terms_have_no_effect); on the momentum timeline an assigned time can make a staffable project fail (momentum_given_time_fails); partly given numbers can be overwritten by the generic schedulers (C16.fixed_count_overwritten); independence on the momentum timeline is refuted in C103."
 },
 "C106": {
  "status": "partial",
  "note": "Proved as stated when every contractor is able to do every work (choice, even, schedule_even, schedule_even_momentum); teams, validity and positive weights in general. False otherwise and refuted: the counter is increased at the index among the accepted contractors (lft/base.py:232), so works of one contractor are counted for another; for every n, n works that two contractors can do equally well all go to the one that already did n works alone (wrong_contractor_counted). Scores are rational numbers in the model, floats in the code."
 },
 "C107": {
  "status": "partial",
  "note": "(1)-(3) are proved. (4) is false: in every project whose finish is a work of its own, an area with all works puts the finish of the project first (the candidates of the swap look only at direct neighbours on the wrong side), so the momentum scheduler places it at the project start, before everything it depends on (whole_area_finish_first, with a concrete schedule in whole_area_breaks_precedence)."
 },
 "C108": {
  "status": "partial",
  "note": "Proved for projects whose chains are entered only at their heads (any priorities), and for all chains if the priorities are equal. Without this (2) is false: a work inside a chain that depends on a work of higher priority value is placed with its chain, before that work, and starts too early (chain_entered_later). Links other than finish-start and inseparable are ignored when lag optimization is switched on or off (other_links_ignored), so the theorems are about finish-start graphs. For LFT the works of a chain ask for the same worker types as its head and lags inside chains are not positive."
 },
 "C109": {
  "status": "partial",
  "note": "(1)-(3) are proved. (4) is false: decrease_key looks for the value with its new key, does not find the old item and adds the value again, after every history and for every changed key (decrease_changed_duplicates, taken_twice)."
 },
 "C111": {
  "status": "partial",
  "note": "False without provisions: a chain whose works have different requirements (different_requirements_rejected) and negative lags (negative_lag_rejected) make validation raise for schedules that the scheduler itself makes. Proved for non-negative lags and chains of works that are alike; for the momentum timeline for runs within the range of time."
 },
 "C114": {
  "status": "partial",
  "note": "reverse_dictionary loses keys whenever two keys have the same value (equal_values_are_lost, for every such dictionary); reverse_twice_partial needs distinct values. The rest is proved in full."
 },
 "C118": {
  "status": "partial",
  "note": "False in the code, with proofs: encode_graph raises for every graph, because metric_longest_path calls the sorting function of the scheduler with two of its four arguments (encode_fails); with a correct call the loop of metric_longest_path would answer 1 for every graph with a dependency, since it takes the works from the end of the order (longest_path_is_one); metric_graph_parallelism_degree raises for every graph, because it compares works with 0 and GraphNode.__eq__ reads an attribute that numbers do not have (parallelism_fails); with a working comparison the degrees would depend on the order in which a set is iterated (not_determined). Proved: with a working comparison the loop over levels ends, counts no work twice in a level and misses no reachable work; eight degrees between 0 and 1 with the stated means; the other metrics; coding and decoding of indices. metric_resource_constrainedness (outside encode_graph) is proved for volumes that are numbers (constrainedness_partial) and raises for volumes of the declared type Time (constrainedness_fails)."
 },
 "C119": {
  "status": "partial",
  "note": "False in the code, with proofs: get never answers, as the result is not returned (get_never_answers); of names with the same unique name the inverse gives at most one back (shared_unique_name); a name outside the table that equals a unique name comes back as another name (unknown_name_renamed). Proved: the mapping and its inverse row by row, the way there and back for tables without repetitions, columns of names, mapping twice."
 },
 "C121": {
  "status": "partial",
  "note": "False in the code, with proofs: kinds of workers that the estimator does not name for any row are dropped without an error, and a work that needs only such workers becomes a service work (unknown_kinds_dropped); with the documented columns min_req and max_req alone the columns have no effect (documented_columns_ignored); volumes read from a file stay text and raise an exception as soon as a requirement is sound (volumes_from_file_raise). Proved: the exact requirements for tables with all three columns as dictionaries, and that saved requirements of known kinds come back."
 },
 "C122": {
  "status": "partial",
  "note": "Proved in both directions for tables in which statuses are texts of dictionaries (works_partial). False in the code for dictionaries themselves, the documented type of required_statuses, and for empty cells: eval raises for anything that is not a text, and one such row makes the whole table fail (documented_statuses_raise). What to_frame puts together has volumes and priorities only (read_back)."
 },
 "C123": {
  "status": "partial",
  "note": "Proved: settings in any order (first_as_set), any history if contractors are a list or set again (again_partial), finish if nothing it looks at was changed (finish_partial), and for all histories that finish does not raise and shows the first ones of its own schedules (finish_own). False in the code: contractors generated for the first graph are used for all later ones, so that a graph is refused that a new pipeline schedules (again_fails, generated_stay); finish reads graph, contractors and node orders of the input object when it is called, so that schedules are lost and shown with foreign graphs and contractors (finish_fails). The work estimator given to the pipeline does not reach the scheduler (estimator_unused)."
 },
 "C124": {
  "status": "partial",
  "note": "Proved: costs are number times price times duration if prices are left at their default of ten times the mean productivity (costs_partial); exactly what is charged for all prices, and when making the team raises (charged); what a copy keeps (copy_keeps), whose workers a team has (teams, teams_belong), and the cost of a schedule (total, total_named). False in the code: Worker.copy does not pass the price on, and every scheduler makes teams of copies, so that prices set by contractors have no influence on any cost (prices_ignored, total_ignores, prices_fail)."
 },
 "C125": {
  "status": "partial",
  "note": "Proved for works of the second call that are not linked to those of the first (others_partial). False in the code, for all inputs: a second call with the same works always raises (again_fails), and a second call with these and further works always gives a graph in which none of the works of the first call can be reached from the start, without an error (more_fails)."
 },
 "C126": {
  "status": "partial",
  "note": "Proved: the record is exact if no list object is handed over twice (recorded_partial), always for single deliveries as the timelines add them (singles); lists that are not the first ones of their material stay as they are (lists_stay). False in the code: add_deliveries keeps the caller's list itself, so that a list handed over for two materials mixes them (twice_fails) and later deliveries are added to the caller's list (lists_fail)."
 },
 "C127": {
  "status": "partial",
  "note": "Proved: the platforms (platforms_iff); the platform of a work that is at one node without holder (platform_partial), that a platform found is right (platform_sound), and exactly when there is none (no_platform); holders if no two share a node (holder_partial). False in the code: a work placed at a node with a holder has no platform, so that supplying it raises KeyError (at_holder_fails); of two holders at one node the first is never found (holders_fail)."
 }
}
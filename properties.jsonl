{"id": "C01", "title": "Time arithmetic saturates and never leaves its range", "statement": "Every Time produced by the constructor or by +, -, *, // lies in [-2*10^9, 2*10^9]; the operators agree with integer arithmetic whenever the exact result lies in that range, are monotone, and adding a non-negative duration to the infinite time leaves it infinite.", "quantifier": "all integers passed to Time and all pairs of Time values", "why_tests_cant": "The claim is about the whole integer range including both saturation borders; tests sample a few sums.", "anchors": ["sampo/schemas/time.py: Time.__init__, set_time, __add__, __sub__, __mul__, __floordiv__, is_inf"]}
{"id": "C02", "title": "Just-in-time timeline keeps every worker", "statement": "Starting from a fresh just-in-time timeline, after any sequence of timeline updates the number of workers recorded for each contractor and worker type equals the contractor's initial number, the release list stays ordered by time, and as long as no team asked for more workers than the contractor owns no recorded number is negative.", "quantifier": "all initial counts, all sequences of updates (teams, finish times, independent or not)", "why_tests_cant": "Conservation must hold after every history of consume/re-add steps; tests see only the histories they build.", "anchors": ["sampo/scheduler/timeline/just_in_time_timeline.py: JustInTimeTimeline.update_timeline"]}
{"id": "C03", "title": "Just-in-time timeline never over-allocates workers", "statement": "If each work is placed on a just-in-time timeline no earlier than the start time the timeline itself reports for its team, and no team exceeds the contractor's pool, then at every moment the workers used by all works placed so far do not exceed the contractor's pool.", "quantifier": "all sequences of placements, all teams, all durations, every moment of time", "why_tests_cant": "Over-allocation depends on the whole placement history and on every moment; a test checks a handful of finished schedules.", "anchors": ["sampo/scheduler/timeline/just_in_time_timeline.py: _find_min_start_time, update_timeline, schedule"]}
{"id": "C04", "title": "Just-in-time start time is exactly when enough workers are free", "statement": "For a team the contractor can supply, a start time is reported by a just-in-time timeline; for a non-independent work it is not before the requested time, enough workers of every type have been released by then, and no earlier moment (not before the requested time) has this; for an independent work it is the latest release among its worker types.", "quantifier": "all reachable timeline states, teams within the pool and requested start times", "why_tests_cant": "It quantifies over all release lists; the wrap-around of negative Python indices only shows for particular counts.", "anchors": ["sampo/scheduler/timeline/just_in_time_timeline.py: _find_min_start_time"]}
{"id": "C05", "title": "Independent works get their worker types exclusively (just-in-time)", "statement": "On a just-in-time timeline a work whose specification says it is independent never overlaps in time with any other work using the same worker types of the same contractor, whatever was scheduled before or is scheduled after it.", "quantifier": "all schedules built on a just-in-time timeline, all mixes of independent and ordinary works", "why_tests_cant": "Exclusivity concerns works scheduled later, in every order; tests place one independent work.", "anchors": ["sampo/scheduler/timeline/just_in_time_timeline.py: _find_min_start_time, update_timeline", "sampo/schemas/schedule_spec.py: WorkSpec.is_independent"]}
{"id": "C06", "title": "Momentum timeline bookkeeping equals capacity minus usage", "statement": "After any sequence of successful updates of a momentum timeline, at every moment the number of workers it reports as available equals the contractor's count minus the workers of all works running at that moment, and it is never negative; an update that would make it negative raises an error instead.", "quantifier": "all sequences of updates with arbitrary intervals and team sizes, every moment of time", "why_tests_cant": "The event list is edited in the middle with counts relative to neighbours; correctness is a statement about all interleavings of intervals.", "anchors": ["sampo/scheduler/timeline/momentum_timeline.py: update_timeline, _validate"]}
{"id": "C07", "title": "Momentum timeline start slot is feasible", "statement": "The start time found by a momentum timeline for a work is not before the requested time and for the whole execution interval starting there every worker type of the team is available in the needed amount, so that placing the work there does not raise an error.", "quantifier": "all reachable timeline states, teams that the contractor can supply, durations and requested times", "why_tests_cant": "Feasibility has to hold in every reachable state, including ties between events at the same time.", "anchors": ["sampo/scheduler/timeline/momentum_timeline.py: _find_earliest_time_slot, _find_min_start_time"]}
{"id": "C08", "title": "Momentum timeline start slot is the earliest", "statement": "No start time earlier than the one found (and not before the requested time) offers the required number of workers of every type for the whole execution interval, and the search always terminates.", "quantifier": "all reachable timeline states, teams, durations and requested times", "why_tests_cant": "Optimality is a universally quantified negative statement over all moments.", "anchors": ["sampo/scheduler/timeline/momentum_timeline.py: _find_earliest_time_slot, _find_min_start_time"]}
{"id": "C09", "title": "Works placed on a momentum timeline start after their predecessors", "statement": "When all predecessors of a work (and of every work of its inseparable chain) are already placed, placing it on a momentum timeline gives each work of the chain a start not before finish + lag of each of its already placed predecessors, and not before the assigned project start.", "quantifier": "all graphs, chains, lags, node2swork states, estimator results, with or without an assigned duration", "why_tests_cant": "Depends on all relative positions of external predecessors of later chain members.", "anchors": ["sampo/scheduler/timeline/momentum_timeline.py: find_min_start_time_with_additional, _schedule_with_inseparables", "sampo/schemas/graph.py: GraphNode.min_start_time"]}
{"id": "C10", "title": "Every work is scheduled exactly once", "statement": "A schedule built by the list schedulers (HEFT, topological, LFT) from a work order of head works contains every work of the graph exactly once and nothing else.", "quantifier": "all work graphs with inseparable chains and all orders containing each head work once", "why_tests_cant": "Chains of every length and every order must be covered.", "anchors": ["sampo/scheduler/generic.py: GenericScheduler.build_scheduler", "sampo/scheduler/lft/base.py: LFTScheduler.build_scheduler", "sampo/scheduler/utils/__init__.py: get_head_nodes_with_connections_mappings_nodes"]}
{"id": "C11", "title": "Schedules respect precedence and lags", "statement": "In a schedule built by a list scheduler from a topological order, every work starts not before finish + lag of each of its predecessors and finishes not before it starts.", "quantifier": "all work graphs, topological orders, resource choices, estimator results, project start times", "why_tests_cant": "Holds or fails only over all graphs and orders; the interaction of chains, lags and resource waits cannot be enumerated.", "anchors": ["sampo/scheduler/generic.py: build_scheduler", "sampo/scheduler/timeline/just_in_time_timeline.py: _schedule_with_inseparables", "sampo/scheduler/timeline/momentum_timeline.py: schedule"]}
{"id": "C12", "title": "Inseparable chains are executed in order by one team", "statement": "The works of an inseparable chain are scheduled one after another in chain order by the same contractor and the same team; each starts no earlier than the previous finishes.", "quantifier": "all chains of any length, all timelines, teams and estimators", "why_tests_cant": "Chains have arbitrary length and arbitrary external predecessors.", "anchors": ["sampo/scheduler/timeline/just_in_time_timeline.py: _schedule_with_inseparables", "sampo/scheduler/timeline/momentum_timeline.py: _schedule_with_inseparables"]}
{"id": "C13", "title": "An assigned duration is fully distributed over a chain", "statement": "When a duration is assigned to an inseparable chain, the durations given to its works sum exactly to the assigned one, each is non-negative when volumes and the assigned duration are non-negative, each work gets its share in proportion to its volume up to one unit of rounding, and works without volume share equally.", "quantifier": "all chain lengths, volumes (including all-zero volumes) and assigned durations", "why_tests_cant": "Rounding at every step depends on all volumes; only an argument over all chains shows that nothing is lost and nothing gets negative.", "anchors": ["sampo/scheduler/timeline/utils.py: get_exec_times_from_assigned_time_for_chain"]}
{"id": "C14", "title": "Contractor search returns the best admissible contractor", "statement": "The contractor search considers exactly the contractors enabled by the work's specification, returns one with the smallest finite finish time, among those with equal finish the smallest workforce (the first in the list on a full tie), and raises an error exactly when no enabled contractor has a finite finish time.", "quantifier": "all contractor lists, specifications and runner results", "why_tests_cant": "Optimality and the error condition quantify over arbitrary lists of results.", "anchors": ["sampo/scheduler/utils/multi_contractor.py: run_contractor_search", "sampo/schemas/schedule_spec.py: WorkSpec.filter_contractors"]}
{"id": "C15", "title": "Worker borders respect requirements and the pool", "statement": "For a contractor that has enough workers of each required type, the reported team borders for every requirement are min_count and min(max_count, available); if any requirement cannot be met an empty team is reported.", "quantifier": "all requirement lists and worker pools", "why_tests_cant": "Arbitrary requirement lists and pools.", "anchors": ["sampo/scheduler/utils/multi_contractor.py: get_worker_borders"]}
{"id": "C16", "title": "Teams in schedules satisfy requirements, pool and specification", "statement": "Every team that the list schedulers and LFT assign uses, for each requirement of the work, a number of workers between min_count and max_count and not above the contractor's pool; numbers fixed in the specification are used exactly, and the contractor is one that the specification enables.", "quantifier": "all works, contractors, specifications and optimizer decisions", "why_tests_cant": "Quantifies over specifications and all optimizer answers.", "anchors": ["sampo/scheduler/base.py: Scheduler.optimize_resources_using_spec", "sampo/scheduler/generic.py: optimize_resources_def", "sampo/scheduler/lft/base.py: get_contractors_and_workers_amounts_for_work, _contractor_workers_assignment"]}
{"id": "C17", "title": "The schedule validator accepts only executable schedules", "statement": "If validate_schedule raises nothing for a finite schedule then every work is scheduled, every predecessor finishes before its successor starts, contractors follow the specification, team sizes are within the requirements, and at no moment does the number of busy workers of a contractor exceed its capacity.", "quantifier": "all schedules, graphs, contractors and specifications", "why_tests_cant": "Soundness of a checker is a statement about every accepted input.", "anchors": ["sampo/utilities/validation.py: validate_schedule and its checks"]}
{"id": "C18", "title": "Schedule rows are ordered by start time and topologically", "statement": "Ordering scheduled works against a work graph yields every work exactly once, by non-decreasing start time, and among works with the same start time every predecessor comes before its successors.", "quantifier": "all acyclic work graphs and all assignments of start times to works", "why_tests_cant": "Depends on all tie patterns.", "anchors": ["sampo/schemas/schedule.py: order_nodes_by_start_time, Schedule.from_scheduled_works"]}
{"id": "C19", "title": "Topological sort is complete and detects cycles", "statement": "The topological level sort lists every item (including items mentioned only as dependencies) exactly once, in an earlier level than everything depending on it, whenever the dependencies are acyclic, and raises a circular dependency error whenever they are not.", "quantifier": "all finite dependency maps", "why_tests_cant": "All graphs, including all cyclic ones.", "anchors": ["sampo/scheduler/topological/base.py: toposort, TopologicalScheduler._topological_sort"]}
{"id": "C20", "title": "Work prioritizations are topological orders", "statement": "The orders produced by HEFT, LFT, randomized LFT and topological prioritization contain each head work once and place every head work after all its predecessors.", "quantifier": "all acyclic graphs, priorities, durations and random choices", "why_tests_cant": "Must hold for all graphs, weights and random draws.", "anchors": ["sampo/scheduler/heft/prioritization.py: prioritization", "sampo/scheduler/lft/prioritization.py: lft_prioritization_core, lft_randomized_prioritization_core", "sampo/scheduler/topological/base.py: _topological_sort", "sampo/scheduler/utils/critical_path.py: ford_bellman"]}
{"id": "C21", "title": "Priority correction makes priorities consistent and is minimal", "statement": "After automatic correction every work's priority number is not greater than that of any of its successors; priorities never increase; and each work's new priority is exactly the smallest original priority among the work itself and all works that (transitively) depend on it.", "quantifier": "all acyclic work graphs and priority assignments, any node order", "why_tests_cant": "Transitive closure over arbitrary DAGs.", "anchors": ["sampo/utilities/priority.py: check_and_correct_priorities, update_priority"]}
{"id": "C22", "title": "Collapsing inseparable chains preserves dependencies", "statement": "Collapsing a graph to its chain heads returns every chain once, and one head depends on another exactly when some work of its chain has a predecessor in the other's chain; parent and child maps are mutually inverse; the returned order is topological; an error is raised exactly if chains depend on each other cyclically.", "quantifier": "all work graphs with any inseparable chains", "why_tests_cant": "Arbitrary graphs and chains.", "anchors": ["sampo/scheduler/utils/__init__.py: get_head_nodes_with_connections_mappings_nodes"]}
{"id": "C23", "title": "Local order shuffling keeps topological order", "statement": "The swap optimizer of the work order returns a permutation of the order and does not break topological order.", "quantifier": "all orders, graphs and areas", "why_tests_cant": "All graphs and areas.", "anchors": ["sampo/scheduler/utils/local_optimization.py: SwapOrderLocalOptimizer.optimize, get_swap_candidates"]}
{"id": "C24", "title": "Order crossover keeps valid orders valid", "statement": "Crossing over two orders of the same works yields two permutations of these works, and every precedence (including 'lower priority group first') respected by both parents is respected by both children.", "quantifier": "all pairs of orders, precedence relations and random choices of crossover points", "why_tests_cant": "Validity must hold for all pairs of parents and all random draws.", "anchors": ["sampo/scheduler/genetic/operators.py: two_point_order_crossover, mate_scheduling_order, get_order_part"]}
{"id": "C25", "title": "Order mutation keeps valid orders valid", "statement": "Mutating an order yields a permutation of it in which every work still follows all its predecessors and precedes all its successors, and the first and last work of each mutated group stay in place.", "quantifier": "all valid orders, graphs, mutation masks, shuffles and insertion choices", "why_tests_cant": "All random draws and graphs.", "anchors": ["sampo/scheduler/genetic/operators.py: mutate_scheduling_order_core, mutate_scheduling_order"]}
{"id": "C26", "title": "Resource crossover and mutation stay inside the borders", "statement": "If in both parents every work's team is within requirement borders and within the contractor borders stored in the chromosome, the same holds for the children of resource crossover and for mutated chromosomes.", "quantifier": "all chromosomes, borders and random choices", "why_tests_cant": "All random draws.", "anchors": ["sampo/scheduler/genetic/operators.py: mate_resources, mutate_resources, mutate_values, mutate_resource_borders"]}
{"id": "C27", "title": "The chromosome check is exact", "statement": "The chromosome order check accepts exactly the orders in which each work comes after all its predecessors (with no predecessor of a later priority group), and the contractor check accepts exactly the assignments where every used amount is within the chromosome's border of its contractor and these are within the contractor's capacity.", "quantifier": "all chromosomes and graphs", "why_tests_cant": "Exactness is a statement over all chromosomes.", "anchors": ["sampo/scheduler/genetic/operators.py: is_chromosome_order_correct, is_chromosome_contractors_correct"]}
{"id": "C28", "title": "Genetic decoding yields feasible schedules", "statement": "Decoding a chromosome with a valid order produces a schedule with every work once, respecting precedence and never exceeding contractor capacities, for both the serial and the parallel schedule generation scheme.", "quantifier": "all valid chromosomes, graphs and specifications", "why_tests_cant": "All chromosomes and event interleavings.", "anchors": ["sampo/scheduler/genetic/converter.py: serial_schedule_generation_scheme, parallel_schedule_generation_scheme"]}
{"id": "C29", "title": "Resource optimizers stay within borders", "statement": "Dichotomy, coordinate descent, full scan and average-requirement optimization return worker counts between the given lower and upper borders, and full scan returns a minimizer of the finish time.", "quantifier": "all borders and all finish time functions", "why_tests_cant": "All functions and borders.", "anchors": ["sampo/utilities/base_opt.py: dichotomy_int, coordinate_descent", "sampo/scheduler/resource/full_scan.py", "sampo/scheduler/resource/coordinate_descent.py", "sampo/scheduler/resource/average_req.py"]}
{"id": "C30", "title": "Deadline search returns a schedule meeting the deadline", "statement": "The deadline-driven resource search returns a schedule that meets the deadline whenever any resource level it probed does, together with the resource level that produced it.", "quantifier": "all finish time functions and deadlines", "why_tests_cant": "All functions and deadlines.", "anchors": ["sampo/scheduler/resources_in_time/average_binary_search.py"]}
{"id": "C31", "title": "Work graph serialization round trip", "statement": "Serializing a work graph and reading it back gives a graph with the same works in the same order and the same edges with the same lags and types.", "quantifier": "all work graphs", "why_tests_cant": "All graphs, including repeated edges and all lags.", "anchors": ["sampo/schemas/graph.py: WorkGraph._serialize, _deserialize, GraphNode._serialize, _deserialize"]}
{"id": "C32", "title": "Building a work graph gives one source and one sink", "statement": "Building a work graph from nodes adds one start without predecessors and one finish without successors such that every given work with no dependency predecessor follows the start, every work without dependency successor precedes the finish, and no other edge is added.", "quantifier": "all node lists", "why_tests_cant": "All graphs.", "anchors": ["sampo/schemas/graph.py: WorkGraph.from_nodes, get_start_stage, get_finish_stage, GraphNode.add_parents"]}
{"id": "C33", "title": "Graph traversal visits each work once, predecessors first", "statement": "The topological traversal of a work graph yields every work reachable from the start exactly once, after all its predecessors, and terminates on every acyclic graph in which all predecessors are reachable from the start.", "quantifier": "all acyclic work graphs", "why_tests_cant": "Termination and order over all graphs.", "anchors": ["sampo/schemas/graph.py: GraphNode.traverse_children, WorkGraph._to_adj_matrix"]}
{"id": "C34", "title": "Restructuring conserves work", "statement": "Splitting a work into stages keeps total volume, worker volumes and material amounts, connects the stages in one inseparable chain, and leaves only finish-start type edges in the restructured graph.", "quantifier": "all work graphs and edge types and lags", "why_tests_cant": "Conservation with rounding for every number of stages.", "anchors": ["sampo/structurator/base.py: split_node_into_stages, graph_restructuring, fill_parents_to_new_nodes"]}
{"id": "C35", "title": "Graph editing keeps the rest of the graph", "statement": "Copying a graph gives the same works and edges; deleting a work keeps all other works and connects its predecessors to its successors, so every dependency between remaining works is preserved.", "quantifier": "all graphs and works", "why_tests_cant": "Reachability preservation over all graphs.", "anchors": ["sampo/structurator/prepare_wg_copy.py", "sampo/structurator/delete_graph_node.py"]}
{"id": "C36", "title": "Block graph copy and order", "statement": "The order in which blocks are processed puts every block after all the blocks it depends on, and copying a block graph preserves the direction of its dependencies.", "quantifier": "all acyclic block graphs", "why_tests_cant": "All graphs.", "anchors": ["sampo/scheduler/multi_agency/block_graph.py: BlockGraph.toposort, __copy__, to_work_graph"]}
{"id": "C37", "title": "Block auctions respect block dependencies", "statement": "The manager gives each block to an agent with the smallest offered finish among finite offers, and every block starts strictly after all blocks it depends on finish.", "quantifier": "all block graphs, agents and offers", "why_tests_cant": "All offers and graphs.", "anchors": ["sampo/scheduler/multi_agency/multi_agency.py: Manager.manage_blocks, run_auction"]}
{"id": "C38", "title": "Input cycle elimination yields an acyclic graph", "statement": "Eliminating cycles from the input always ends without an exception, returns a subgraph without cycles (links in their original order), changes nothing if there was no cycle, and removes only links that are lightest (missing weights count as 1) on some cycle of the input. The same holds for the predecessor columns of the input table.", "quantifier": "all finite weighted input graphs and all tables", "why_tests_cant": "All graphs.", "anchors": ["sampo/userinput/parser/general_build.py: Graph.dfs_cycle, find_cycle, eliminate_cycle, eliminate_cycles, break_loops_in_input_graph"]}
{"id": "C39", "title": "Routes are shortest paths", "statement": "The distances computed on the transport network are the lengths of shortest routes; a route constructed from available roads between two different nodes uses available roads only, is as short as possible, and is empty only if there is none; the route read from the tables has the tabulated length; depots are listed nearest first.", "quantifier": "all road networks, sets of available roads and pairs of nodes", "why_tests_cant": "All networks.", "anchors": ["sampo/schemas/landscape.py: _dijkstra, construct_route, _build_routes, get_route, get_sorted_holders", "sampo/schemas/landscape_graph.py: add_neighbours, _to_adj_matrix"]}
{"id": "C40", "title": "A zone has one status at a time", "statement": "Works that need different non-zero statuses of the same zone never overlap in time, and every change of status is given its full cost in time.", "quantifier": "all zone timelines and placement sequences", "why_tests_cant": "All histories.", "anchors": ["sampo/scheduler/timeline/zone_timeline.py"]}
{"id": "C41", "title": "Material stock is never overdrawn", "statement": "Whatever sequence of works asks for its materials: what is delivered from a storage never exceeds its stock; no road is booked beyond its bandwidth; a delivery leaves from a known storage, arrives no earlier than the work asked for it and exactly when the work is told it may start; a storage that has the material, vehicles and a route makes the delivery; the vehicles sent can carry it and are not used elsewhere, with roads booked for the time of the trip; and what a platform had and received covers what its works have needed.", "quantifier": "all landscapes, all sequences of deliveries of any length, all needs and deadlines", "why_tests_cant": "Each delivery depends on all earlier bookings of stocks, vehicles and roads; overdrawing needs particular interleavings of works on several platforms.", "anchors": ["sampo/scheduler/timeline/hybrid_supply_timeline.py: HybridSupplyTimeline.deliver_resources, _supply_resources, _find_earliest_start_time, _update_timeline", "sampo/scheduler/timeline/platform_timeline.py: PlatformTimeline", "sampo/schemas/landscape.py"]}
{"id": "C42", "title": "Resource usage reports are exact", "statement": "The usage table of a schedule shows, for every worker type and every moment, the number of workers of the type busy at the moment; the reported peak is the largest of them, the reported sum of peaks and cost are the sums over types, and the reported total usage of a type is the sum over works of count times duration.", "quantifier": "all schedules", "why_tests_cant": "The sweep over moments must be right for every overlap of every number of works.", "anchors": ["sampo/utilities/resource_usage.py: get_total_resources_usage, resources_peaks_sum, resources_costs_sum, resources_sum, resources_peaks"]}
{"id": "C43", "title": "Linked list removal and append", "statement": "Removing elements by a condition, which may keep a state, keeps exactly the elements it does not select, in order, asks once about each element and leaves the right length; appending adds an element at the end; iteration yields all elements; after any sequence of these operations the list contains what it should.", "quantifier": "all lists, all conditions, all operation sequences", "why_tests_cant": "The list is a mutable pointer structure: a stale pointer shows only after particular histories.", "anchors": ["sampo/utilities/linked_list.py: LinkedList.append, LinkedList.remove_if, LinkedList.__iter__, Iterator.remove", "sampo/scheduler/genetic/converter.py: parallel_schedule_generation_scheme"]}
{"id": "C44", "title": "Lag optimization option of the pipeline", "statement": "With lag optimization switched on the pipeline schedules the restructured graph, switched off the original graph, and with automatic choice it schedules both variants and keeps, with its graph, schedules and orders, the one whose shortest schedule is not longer than any of the other. The result is for the contractors given or generated, and only if these pass the feasibility check.", "quantifier": "all projects, schedulers and option values", "why_tests_cant": "The option is matched against value patterns; a pattern that never applies goes unnoticed unless every value is considered together with every project.", "anchors": ["sampo/pipeline/default.py: DefaultInputPipeline.schedule", "sampo/pipeline/lag_optimization.py: LagOptimizationStrategy"]}
{"id": "C45", "title": "Contractor feasibility check of the pipeline is exact", "statement": "The pipeline accepts a contractor list exactly when for every work some contractor owns at least the minimum number of each required worker type; then a team that meets the minima can be formed for every work, and otherwise there is a work for which no contractor can form a team.", "quantifier": "all graphs and contractor lists", "why_tests_cant": "All inputs.", "anchors": ["sampo/pipeline/default.py: contractors_can_perform_work_graph", "sampo/scheduler/utils/__init__.py: get_worker_contractor_pool", "sampo/scheduler/utils/multi_contractor.py: get_worker_borders"]}
{"id": "C46", "title": "Default work time estimate", "statement": "The default estimator returns a time between zero and infinity, zero for an empty team; for a team that is not empty, with known productivities and within the maxima, it returns infinity exactly when some requirement with a positive minimum is not met, and otherwise the longest time a requirement takes, volume divided by productivity times the output of the team; more workers up to the maxima never take longer; productivities set by the user are used for the contractor they were set for.", "quantifier": "all works, teams and productivities (static productivity mode)", "why_tests_cant": "All teams and productivities; monotonicity relates pairs of teams.", "anchors": ["sampo/schemas/time_estimator.py: DefaultWorkEstimator.estimate_time, DefaultWorkEstimator.set_worker_productivity, communication_coefficient"]}
{"id": "C47", "title": "Generated contractor can execute the graph", "statement": "The contractor generated for a work graph owns, for every worker type, at least the chosen bound (minimum, average in whole workers, or maximum) of every requirement in the graph, only types that are required, and with scaler 1 exactly the largest bound; generation succeeds exactly for scalers of at least 1, and generated contractors pass the feasibility check of the pipeline.", "quantifier": "all graphs, scalers, generation methods, numbers of contractors", "why_tests_cant": "All graphs; the grouping of requirements by type keeps one value per group.", "anchors": ["sampo/generator/environment/contractor_by_wg.py: get_contractor_by_wg", "sampo/pipeline/default.py: DefaultInputPipeline.schedule"]}
{"id": "C48", "title": "Merging split stages restores whole works", "statement": "Uniting the stages of a split work in a schedule gives one row per original work, under the id of the work, whose volume and cost are the sums over its stages, which starts with its first stage and finishes with its last one; rows are ordered by start, the execution time stays the same and schedules without split works are only reordered. The table with merged stages reports the same, with the time from start to finish as duration.", "quantifier": "all schedules with any number of works, split into any number of stages, all ids", "why_tests_cant": "Stages are found by text comparison of ids and numbered by the text of names: which ids collide and which stage represents the work depends on the names and on the order of equal keys in a sort.", "anchors": ["sampo/schemas/schedule.py: Schedule.unite_stages, Schedule.merged_stages_datetime_df", "sampo/utilities/schedule.py: fix_split_tasks, merge_split_stages", "sampo/structurator/base.py: split_node_into_stages"]}
{"id": "C49", "title": "Requests above the pool are rejected", "statement": "Asking a timeline for a team with more workers of a type than the contractor owns does not yield a usable start time: it is an error or an infinite time, in every reachable state.", "quantifier": "all reachable timeline states of both timeline kinds, all over-sized teams", "why_tests_cant": "The wrap-around of negative Python indices only shows for particular counts; a test with a huge demand sees an error.", "anchors": ["sampo/scheduler/timeline/just_in_time_timeline.py: _find_min_start_time", "sampo/scheduler/timeline/momentum_timeline.py: _find_min_start_time"]}
{"id": "C50", "title": "Independent works get their worker types exclusively (momentum)", "statement": "On a momentum timeline a work whose specification says it is independent never overlaps in time with any other work using the same worker types of the same contractor, whatever was scheduled before or is scheduled after it.", "quantifier": "all schedules built on a momentum timeline, all mixes of independent and ordinary works", "why_tests_cant": "Exclusivity concerns works scheduled later, in every order; tests place one independent work.", "anchors": ["sampo/scheduler/timeline/momentum_timeline.py: _find_earliest_time_slot, update_timeline", "sampo/schemas/schedule_spec.py: WorkSpec.is_independent"]}
{"id": "C51", "title": "Complete schedules never exceed contractor capacities", "statement": "In a schedule built by a list scheduler (HEFT, topological, LFT) on either timeline, at every moment the scheduled works running at that moment use no more workers of a type than their contractor owns, provided the chosen teams are well formed (and, for the just-in-time timeline, within the pool).", "quantifier": "all work graphs, orders, estimators, materials, zones, specifications with non-negative assigned durations, team choices and moments", "why_tests_cant": "Capacity at each moment depends on the whole history of placements, on inseparable chains stretched by external predecessors and material deliveries, and on every team choice; tests sample a few graphs.", "anchors": ["sampo/scheduler/generic.py:GenericScheduler.build_scheduler", "sampo/scheduler/lft/base.py:LFTScheduler.build_scheduler", "sampo/scheduler/timeline/just_in_time_timeline.py:JustInTimeTimeline.schedule", "sampo/scheduler/timeline/momentum_timeline.py:MomentumTimeline.schedule"]}
{"id": "C52", "title": "Execution time is the latest finish", "statement": "For a schedule created together with its work graph, whose predecessors finish before their successors start and whose works all lead to the project finish, the reported execution time is the finish of the project-finish work and no work finishes later.", "quantifier": "all acyclic graphs, all sets of scheduled works, all start and finish times, all iteration orders of the sets used while ordering the rows", "why_tests_cant": "The execution time is read from the last row, so its correctness depends on how ties in start times are ordered, over all graphs and all set iteration orders.", "anchors": ["sampo/schemas/schedule.py:Schedule.execution_time", "sampo/schemas/schedule.py:Schedule.from_scheduled_works", "sampo/schemas/schedule.py:order_nodes_by_start_time"]}
{"id": "C53", "title": "The chosen contractor finishes the work first", "statement": "When the HEFT or topological scheduler places a work, no other contractor that may do it would have finished it earlier at this point of the run, each contractor with the team which the resource optimizer forms for it.", "quantifier": "all states of a run, all works without an inseparable chain (not the first of the project), all contractor lists, specifications that enable several contractors, all estimators and resource optimizers that answer with counts between the borders, projects without material and zone requirements and without assigned durations", "why_tests_cant": "Tests check the final schedule only. Whether the contractor taken is the fastest compares the placement that was made with placements that were never made, in every state a timeline can reach.", "anchors": ["sampo/scheduler/generic.py:GenericScheduler.get_default_res_opt_function", "sampo/scheduler/utils/multi_contractor.py:run_contractor_search", "sampo/scheduler/timeline/just_in_time_timeline.py:JustInTimeTimeline.find_min_start_time_with_additional", "sampo/scheduler/timeline/momentum_timeline.py:MomentumTimeline.find_min_start_time_with_additional"]}
{"id": "C54", "title": "A project that can be staffed gets a schedule", "statement": "If a project has no material and zone requirements and no assigned durations, and for every work some enabled contractor owns enough workers of each required type, then the list schedulers on both timelines return a schedule that contains every work: no exception is raised on the way and no search runs for ever. For the LFT schedulers counts may be fixed in the specification, within the requirement and the contractor's staff. For the HEFT and topological schedulers no counts are fixed, and the lags and durations of all works together stay below half of the value of Time.inf().", "quantifier": "all work graphs with their inseparable chains (edges inside a chain with a lag of at least 0; on the momentum timeline the works of a chain ask for the worker types of its head or for none), all orders in which works follow their predecessors, all contractor lists and specifications of the kind described, all time estimators with non-negative estimates, all project start times; for LFT every choice among the contractors that can do a work, for HEFT every resource optimizer that answers with counts between the borders", "why_tests_cant": "A test shows that one project is scheduled; that no staffable project makes an assertion, a list access or a search loop fail depends on every state the timelines can reach while works are placed.", "anchors": ["sampo/scheduler/generic.py:GenericScheduler.build_scheduler", "sampo/scheduler/lft/base.py:LFTScheduler.build_scheduler", "sampo/scheduler/lft/base.py:get_contractors_and_workers_amounts_for_work", "sampo/scheduler/timeline/just_in_time_timeline.py:JustInTimeTimeline.schedule", "sampo/scheduler/timeline/momentum_timeline.py:MomentumTimeline.schedule", "sampo/scheduler/generic.py:GenericScheduler.get_default_res_opt_function"]}
{"id": "C55", "title": "Offspring of valid chromosomes are valid and accepted", "statement": "Producing offspring in the genetic scheduler from two valid individuals (all works, predecessors first, priorities ascending, amounts within the requirements and the contractor borders, allowed contractors) never fails, and both children are valid individuals which the chromosome check accepts.", "quantifier": "all problems with at least one work, all pairs of valid individuals (with equal borders if resources are not optimized), all results of the random generator", "why_tests_cant": "offspring depend on long sequences of random draws over unbounded orders; a test samples only some of them", "anchors": ["sampo/scheduler/genetic/schedule_builder.py: make_offspring", "sampo/scheduler/genetic/operators.py: mate, mutate, mutate_borders, is_chromosome_correct"]}
{"id": "C56", "title": "The genetic scheduler returns the best it has seen", "statement": "Without a deadline the genetic scheduler returns individuals that were evaluated, none of which is at least as good as another one, such that no individual of the first population is better in any way; with one objective it returns exactly one, and no individual evaluated in any generation is better.", "quantifier": "all fitness functions and numbers of objectives, first populations, offspring, shuffles, time limits, plateau limits and numbers of generations; every selection operator for the first part", "why_tests_cant": "runs are random and unbounded; elitism must hold for every sequence of generations", "anchors": ["sampo/scheduler/genetic/schedule_builder.py: build_schedules_with_cache, compare_individuals", "sampo/scheduler/genetic/operators.py: select_new_population"]}
{"id": "C57", "title": "A deadline that was reached is kept", "statement": "With a deadline the genetic scheduler returns at least one schedule; either all returned schedules meet the deadline, or no individual evaluated in the time stage meets it and the returned ones are the fastest of them. In particular, if the first population has an individual meeting the deadline, so do all returned ones.", "quantifier": "all execution times, resource fitness functions, deadlines, non-empty populations, offspring, shuffles, time and plateau limits and numbers of generations", "why_tests_cant": "the second stage discards and replaces individuals at random for many generations", "anchors": ["sampo/scheduler/genetic/schedule_builder.py: build_schedules_with_cache"]}
{"id": "C58", "title": "The first population has the requested size and all initial schedules", "statement": "Drawing the first population never fails and gives exactly the requested number of individuals. If there are at least two places more than initial schedules, all weights being positive, every initial schedule is in it, so the returned individual is at least as good as each of them.", "quantifier": "all population sizes, numbers and positive weights of initial schedules, all random samples", "why_tests_cant": "the counts depend on rounding for every size and every list of weights", "anchors": ["sampo/scheduler/genetic/operators.py: generate_chromosomes", "sampo/scheduler/genetic/base.py: GeneticScheduler.generate_first_population"]}
{"id": "C59", "title": "Inserting a work or a graph keeps everything else", "statement": "Inserting a work into a graph gives a graph with all works and edges of the given one and the new work with exactly the given edges from its parents and to its children; the works that come before each other are the same, except through the new work. Inserting a graph between two works gives a graph with the works and edges of both, without the start and the finish of the inserted one, where every inserted work comes after the first chosen work and before the second. Both results are acyclic if the insertion closes no cycle. Renumbering gives the works consecutive different ids.", "quantifier": "all acyclic work graphs, all new works with all edges to and from the graph's works, all inserted graphs and places of insertion", "why_tests_cant": "edges are renamed and rebuilt in node order and rely on ids of all works; a lost or doubled edge shows only for particular shapes", "anchors": ["sampo/structurator/insert_wu.py: insert_work_unit", "sampo/structurator/graph_insertion.py: graph_in_graph_insertion", "sampo/structurator/light_modifications.py: work_graph_ids_simplification", "sampo/structurator/prepare_wg_copy.py: prepare_work_graph_copy"]}
{"id": "C60", "title": "Reported downtime of agents", "statement": "The downtime an agent reports is the total time it was idle before and between the blocks it has got.", "quantifier": "all sequences of won and lost auctions", "why_tests_cant": "All histories.", "anchors": ["sampo/scheduler/multi_agency/multi_agency.py: Agent.confirm, update_stat"]}
{"id": "C61", "title": "Local optimizers of a pipeline are applied one after another", "statement": "The optimizers of the node order given to a pipeline are applied in the order given, each to the result of the one before; the optimizers of the schedule are applied to each schedule in turn in the same way; without optimizers the schedules are unchanged.", "quantifier": "all numbers of optimizers, schedules and orders", "why_tests_cant": "The queue passes arguments by position; whether the second optimizer gets what it needs depends on the number of optimizers and on what the first returns.", "anchors": ["sampo/pipeline/default.py: DefaultInputPipeline.optimize_local, DefaultSchedulePipeline.optimize_local, DefaultSchedulePipeline.finish", "sampo/schemas/apply_queue.py: ApplyQueue.apply", "sampo/scheduler/utils/local_optimization.py: OrderLocalOptimizer, ScheduleLocalOptimizer"]}
{"id": "C62", "title": "The critical path is a path of the project and nothing in the project takes longer", "statement": "For every scheduled project the search for the critical path ends and returns works each of which depends on the one before (chains of inseparable works count as one), ending before the final work, and no other such path of works takes longer in the schedule.", "quantifier": "all acyclic projects with one final work, all chains of inseparable works, all durations in the schedule, all paths of the project", "why_tests_cant": "The claim compares the result with every path of every project; the number of paths grows exponentially and tests look at a few fixed projects.", "anchors": ["sampo/scheduler/utils/critical_path.py: critical_path_schedule, critical_path_schedule_lag_optimized, _critical_path, ford_bellman", "sampo/scheduler/utils/time_computaion.py: calculate_scheduled_time_cascade, work_priority", "sampo/schemas/project.py: ScheduledProject.critical_path"]}
{"id": "C63", "title": "The hybrid scheduler ends and returns the best schedule it has seen", "statement": "For every starting scheduler, every cycle of population schedulers and every outcome of their random choices, a run of the hybrid scheduler ends and returns a chromosome such that no population it has seen contains a better one; in particular it is not worse than any starting schedule.", "quantifier": "all starting populations, all cycles of population schedulers, all their random choices, all sizes of the plateau, all fitness functions", "why_tests_cant": "Termination and optimality among everything seen depend on every history of populations; runs are random and a test sees one history.", "anchors": ["sampo/hybrid/cycle.py: CycleHybridScheduler.run, _get_population_fitness, _get_best_individual", "sampo/hybrid/population.py: GeneticPopulationScheduler, HeuristicPopulationScheduler", "sampo/scheduler/genetic/base.py: GeneticScheduler.upgrade_pop"]}
{"id": "C64", "title": "Fitness functions rank schedules as documented", "statement": "The fitness functions for deadlines prefer every schedule that meets the deadline to every schedule that misses it, and among schedules that meet it the one with the smaller sum of resource peaks (DeadlineResourcesFitness) or the smaller cost (DeadlineCostFitness). With every fitness function a chromosome that cannot be decoded is never preferred to a schedule.", "quantifier": "all schedules, deadlines and selections of worker types", "why_tests_cant": "A test compares two schedules; the ranking has to be right for every pair of schedules, including those at the deadline and those with large costs.", "anchors": ["sampo/scheduler/genetic/operators.py:TimeFitness", "sampo/scheduler/genetic/operators.py:SumOfResourcesPeaksFitness", "sampo/scheduler/genetic/operators.py:TimeWithResourcesFitness", "sampo/scheduler/genetic/operators.py:DeadlineResourcesFitness", "sampo/scheduler/genetic/operators.py:DeadlineCostFitness", "sampo/scheduler/genetic/operators.py:TimeAndResourcesFitness"]}
{"id": "C65", "title": "A table of works becomes a work graph with exactly its works and links", "statement": "CSVParser.read_graph_info followed by CSVParser.work_graph, for a table in which every row has a distinct id and one predecessor, one connection type and one lag for each of its links, ends without an exception and gives a work graph of exactly the works of the table and a start and a finish; the edges into each work are its links to works of the table, in their order, with their types and lags, and an edge from the start if no link is a dependency. A link is given up only if it closes a cycle of links of the table; in a table without cycles none is. Predecessors are found by the text of their ids, and numbers as the whole number they denote.", "quantifier": "every table of works with any ids, links, types and lags, with or without cycles, every order of topological sorting and of sets, and the modes that leave links unchanged (all_connections, or no history)", "why_tests_cant": "the texts, link patterns and cycles of a table are unbounded, and the failures sit in particular texts (leading zeros, spaces, missing cells) that test tables do not contain", "anchors": ["sampo/userinput/parser/csv_parser.py:CSVParser.read_graph_info", "sampo/userinput/parser/csv_parser.py:CSVParser.work_graph", "sampo/userinput/parser/general_build.py:preprocess_graph_df", "sampo/userinput/parser/general_build.py:fix_df_column_with_arrays", "sampo/userinput/parser/general_build.py:break_loops_in_input_graph", "sampo/userinput/parser/general_build.py:add_graph_info", "sampo/userinput/parser/general_build.py:topsort_graph_df", "sampo/userinput/parser/general_build.py:build_work_graph", "sampo/userinput/parser/history.py:set_connections_info"]}
{"id": "C66", "title": "History adds links and never takes one of the table away", "statement": "When a table of works is read together with links from history, the edges into each work are its own links to works of the table followed by links from history: one for each work of the table that history names as a predecessor and that is not one yet, with the type and lag of history. Links are given up only where they have the smallest number of records on a cycle; a link of the table is never given up for a link of history. With change_connections_info, types and lags of links of the table are replaced by those of history for the same predecessor; links not in history keep theirs.", "quantifier": "every table of works, every history (any links, types, lags and numbers of records), every option of read_graph_info, every order of topological sorting and of sets", "why_tests_cant": "whether a link survives depends on cycles through arbitrarily many links of table and history; tests use one small table without cycles", "anchors": ["sampo/userinput/parser/history.py:set_connections_info", "sampo/userinput/parser/general_build.py:break_loops_in_input_graph", "sampo/userinput/parser/csv_parser.py:CSVParser.read_graph_info"]}
{"id": "C67", "title": "A work graph saved as a table and read again is the same work graph", "statement": "The table that WorkGraph.to_frame makes can be given back to CSVParser.read_graph_info and CSVParser.work_graph (this is what PreparationPipeline does with a work graph). The result has the same works; between them there are the same edges, in the same order, with the same types and lags, and a work starts with the project exactly if it did before.", "quantifier": "all work graphs without cycles, all ids and lags, all orders of library sorts", "why_tests_cant": "The round trip depends on the shape of the whole graph, on the texts of ids and lags, and on how text cells are split and filled; tests cover a few graphs.", "anchors": ["sampo/schemas/graph.py: WorkGraph.to_frame", "sampo/userinput/parser/csv_parser.py: CSVParser.read_graph_info, CSVParser.work_graph", "sampo/userinput/parser/general_build.py: preprocess_graph_df, topsort_graph_df, build_work_graph", "sampo/pipeline/preparation.py: PreparationPipeline._prepare_works_info"]}
{"id": "C68", "title": "Links found in the records of past projects", "statement": "CSVParser.read_graph_info with a history never fails because of the dates in it. Two works of the table with different names that were both done at some site get exactly one link between them; the work that began first at more sites becomes the predecessor. If at every site the first ended before the second began, the link is finish-start without a lag; if at every site the second began while the first went on, the link has the type of the overlap and a lag that is the share of the duration passed, between 0 and 1. The type is that found at most sites. The order of the records makes no difference.", "quantifier": "all histories (records with sites, names and dates, some of them missing), all tables of works, all orders of records", "why_tests_cant": "The result depends on counts over all pairs of works and all records, and on a minimum of a filtered list that must never be empty; the test of the parser runs with an empty history.", "anchors": ["sampo/userinput/parser/history.py: get_all_seq_statistic, gather_links_types_statistics, find_min_without_outliers, get_all_connections, get_delta_between_dates"]}
{"id": "C69", "title": "Synthetic work graphs", "statement": "SimpleSynthetic.work_graph (get_graph) with accepted borders always returns a graph, and the graph is usable: one start and one finish of service units, every work reachable from the start and leading to the finish, no cycles. A small graph has 30 to 50 vertices. With a bottom border the graph has at least that many works, with a top border at most that many, with a number of clusters exactly that many clusters. The clusters depend on each other as the type says: in a parallel graph on the first, in a sequential graph on the one before, in a general graph on an earlier one (the last one, if there is no branching). The same seed gives the same graph.", "quantifier": "all types of graphs, borders, numbers of clusters, probabilities and all outcomes of the random numbers", "why_tests_cant": "Random numbers are drawn without limit and the loop runs until a border is reached; tests generate a few graphs per type.", "anchors": ["sampo/generator/pipeline/project.py: get_small_graph, _get_cluster_graph, get_graph", "sampo/generator/pipeline/cluster.py: get_cluster_works", "sampo/generator/base.py: SimpleSynthetic.small_work_graph, SimpleSynthetic.work_graph", "sampo/generator/config/gen_counts.py: GRAPH_COUNTS, MIN_GRAPH_COUNTS"]}
{"id": "C70", "title": "Copies of a work graph are whole and independent", "statement": "A copy of a work graph made with copy.deepcopy, pickle or dill has the same start, finish, works and links as the graph, and the end of the life of one graph object does not change other graph objects.", "quantifier": "every project (finite acyclic graph whose works all lead to the finish), every way of copying, every other graph object alive at the same time", "why_tests_cant": "What a copy has lost depends on when temporary graph objects are destroyed; a test copies one graph and looks at few of its works, and must notice links missing on any of them.", "anchors": ["sampo/schemas/graph.py: WorkGraph.__getstate__, __setstate__, __del__, _serialize, _deserialize, recreate, serialize_wg"]}
{"id": "C71", "title": "An obstruction inserts a graph into a work graph", "statement": "With the given probability OneInsertObstruction inserts a graph at a random work of the given work graph: afterwards the work graph is still a project with the works and links of both, the inserted works come after the chosen work and before its chosen successor, and the call ends.", "quantifier": "every pair of projects without common works, every random choice of the work and its successor, every random number and probability, inserted graph kept by the caller or not", "why_tests_cant": "The outcome depends on random choices and on the shape of both graphs; a run for one seed shows one choice of work and successor.", "anchors": ["sampo/scheduler/utils/obstruction.py: Obstruction.generate, OneInsertObstruction.apply, from_static_graph", "sampo/schemas/graph.py: GraphNode.add_parents, WorkGraph.reinit"]}
{"id": "C72", "title": "Links of a work are read as they are", "statement": "Whatever a program did before, in whatever order it created works, linked them and read links, reading the predecessors, successors, inseparable neighbours, inseparable chain or start-start neighbours of a work gives what the links made so far say, although all of these are remembered between reads.", "quantifier": "every sequence of creations, links and reads over any number of nodes, every initial set of links", "why_tests_cant": "A stale value shows up only for particular orders of reads and links; there are infinitely many sequences.", "anchors": ["sampo/schemas/graph.py: GraphNode.add_parents, invalidate_parents_cache, invalidate_children_cache, parents, children, inseparable_parent, inseparable_son, neighbors, get_inseparable_chain"]}
{"id": "C73", "title": "Extending a synthetic graph renames requirements only", "statement": "Asking for more kinds of workers in a work graph than there are changes nothing but the kinds asked for by the requirements: every requirement keeps its volume, its numbers and its name and its kind only gets longer, requirements of different kinds stay of different kinds, and afterwards there are as many kinds as wanted. With enough kinds the graph is returned as it was. The same holds for names of works, and the generator of graphs with wanted numbers of names and kinds works.", "quantifier": "every list of works and requirements, every wanted number, every order of the kinds, every random choice", "why_tests_cant": "The result depends on random choices and on the names in the graph; two renamed kinds may only collide for particular names.", "anchors": ["sampo/generator/pipeline/extension.py: extend_resources, extend_names, _extend_str_fields", "sampo/generator/base.py: SimpleSynthetic.advanced_work_graph"]}
{"id": "C74", "title": "Random materials obey the given names and borders", "statement": "Setting materials for a work graph gives every work that is not a service work different materials of the given list, no fewer than the bottom border and no more than the top border, with counts between 52 and 345, and leaves service works alone; it fails only if the borders cannot be met.", "quantifier": "every list of works, list of names, pair of borders, and every outcome of the random choices", "why_tests_cant": "The outcome is random: a test sees some outcomes for some borders.", "anchors": ["sampo/generator/base.py: SimpleSynthetic.set_materials_for_wg"]}
{"id": "C75", "title": "Random values of an interval lie in it", "statement": "A random real or integer taken from a uniform or Gaussian interval lies between its borders, and every integer of a uniform interval can be taken.", "quantifier": "every interval, every random number drawn", "why_tests_cant": "Values are random and the borders are arbitrary reals, so violations can be rare events for particular borders.", "anchors": ["sampo/schemas/interval.py: IntervalUniform.rand_float, rand_int, IntervalGaussian.rand_float, rand_int"]}
{"id": "C76", "title": "Synthetic works can be done by a synthetic contractor", "statement": "Every requirement of every synthetic work asks for at least one worker, for no more at least than at most, and for a positive volume, whatever lengths and numbers of boreholes were drawn; a generated contractor has exactly the professions asked for, as many workers as its number of sets times the proportions up to the scatter and inside the borders, and enough for each requirement of each synthetic work.", "quantifier": "every kind of work, every length in the generator's ranges, every number of boreholes, every number of sets and scatter, every random number", "why_tests_cant": "Lengths, counts and workers are random reals; rounding down to zero or below the needed number happens for particular values only.", "anchors": ["sampo/generator/config/worker_req.py", "sampo/generator/pipeline/cluster.py", "sampo/generator/environment/contractor.py: get_contractor, _get_stochastic_counts", "sampo/schemas/requirements.py: WorkerReq.scale_all, scale_volume"]}
{"id": "C77", "title": "Random productivity stays within its borders", "statement": "When the estimator is switched to random productivity, the estimated time of a work is never shorter than with every productivity at its upper border and never longer than with every productivity at its lower border; without random productivity the estimate does not depend on chance. A productivity set for one contractor or one profession changes the estimates of nobody else.", "quantifier": "every table of productivities (uniform or Gaussian, per profession and per contractor), every sequence of random numbers, every team and every list of requirements", "why_tests_cant": "A test sees the draws of one seed; the bounds must hold for every sequence of random numbers and every team size.", "anchors": ["sampo/schemas/time_estimator.py: DefaultWorkEstimator.estimate_time, set_worker_productivity, set_productivity_mode", "sampo/schemas/interval.py: IntervalUniform.rand_float, IntervalGaussian.rand_float"]}
{"id": "C78", "title": "Generated transport networks are usable", "statement": "For every work graph of at least two works the generator of landscapes gives a network in which every place can be reached from every other along roads wide enough for as many vehicles as there are works; every chain of works that does not begin with a service work is placed, as a whole, on exactly one platform, and chains are dealt out evenly; a platform can store what any work needs, and every holder has as much of each material as all works need together, with at most three of its twenty vehicles needed for one work.", "quantifier": "every work graph, every assignment of needed materials, every outcome of the random choices", "why_tests_cant": "Connectivity, unique placement and sufficiency must hold for every graph size and every outcome of the random choices; a test sees a few seeds.", "anchors": ["sampo/generator/environment/landscape.py: get_landscape_by_wg", "sampo/schemas/landscape_graph.py: LandGraphNode.add_neighbours, LandGraph", "sampo/schemas/landscape.py: LandscapeConfiguration", "sampo/scheduler/timeline/hybrid_supply_timeline.py: _get_necessary_vehicles_amount"]}
{"id": "C79", "title": "Saved objects are loaded as they were", "statement": "A work, a contractor or a schedule that is saved as text and loaded again is the same object: every identifier, name, volume, requirement, team, zone transition, time and cost is unchanged, works of a schedule keep their order, and saving the loaded object again gives the same text. A copy made by pickling a work has the same data.", "quantifier": "every work, scheduled work, contractor and schedule, with any number of requirements, workers, zones and works", "why_tests_cant": "The round trip goes through generic code that walks over the fields of any class; a test shows it for the objects it builds, not for every combination of fields, list lengths and value types.", "anchors": ["sampo/schemas/serializable.py: AutoJSONSerializable._serialize, _deserialize, dumps, loads, loadd", "sampo/schemas/works.py: WorkUnit, __getstate__, __setstate__", "sampo/schemas/scheduled_work.py: ScheduledWork", "sampo/schemas/contractor.py: Contractor", "sampo/schemas/schedule.py: Schedule._serialize, _deserialize"]}
{"id": "C80", "title": "The table of a schedule shows its works", "statement": "The table of a schedule has one row for every scheduled work, showing its identifier, name, contractor, cost, volume, start, finish, duration, team, and every part of its model name under the name of that part. With a work graph rows are ordered by start and no work is above its predecessors. The dictionary of the schedule gives every work for its identifier, the table without service works has exactly the other works in the same order, the execution time is the time at which the last work is finished, and the table of dates is the table of merged works moved by the offset.", "quantifier": "every list of scheduled works with any model names, every acyclic work graph, every order in which sets are iterated, every offset", "why_tests_cant": "Columns are taken from the first work and values are put into them by position, so the result depends on all works together; ordering must hold for every graph and every set iteration order.", "anchors": ["sampo/schemas/schedule.py: Schedule.from_scheduled_works, pure_schedule_df, to_schedule_work_dict, execution_time, merged_stages_datetime_df, order_nodes_by_start_time", "sampo/utilities/schedule.py: offset_schedule", "sampo/utilities/datetime_util.py: add_time_delta"]}
{"id": "C81", "title": "Generated block graphs have the requested shape", "statement": "Generating a block graph of a given kind gives an acyclic graph in which every block with works is after a global start and before a global end: parallel blocks have no links among them, sequential blocks are a chain in the given order, and random blocks have only links from earlier to later blocks. Generating queues gives an acyclic graph in which every block of a queue is after every block of every earlier queue and the blocks of one queue do not depend on each other, so that in every schedule of a manager queues are done in turn.", "quantifier": "every kind of graph, every number and size of blocks including empty ones, every result of the random choices, every list of queues", "why_tests_cant": "The links depend on random draws and on empty blocks in between; shape must hold for every draw and every number of blocks.", "anchors": ["sampo/scheduler/multi_agency/block_generator.py: generate_blocks, generate_queues, generate_block_graph, SyntheticBlockGraphType"]}
{"id": "C82", "title": "Auctions of the stochastic and neural managers choose as they say", "statement": "The stochastic manager gives a block to an agent whose predicted finish, weighted by the confidence in the agent, is not later than that of any other agent; confidence is lowered exactly for a winner that delivers later than it predicted, and never raised; with agents that are not random it decides as the plain manager does. The neural manager gives a block to a free agent if there is one, among those to one with the predicted scheduling algorithm, among those to one whose workers are nearest to the predicted ones. In both cases only the winner is given the block, and it finishes not later than with any other agent.", "quantifier": "every set of agents, every confidence, every predicted algorithm and resources, every behaviour of offers including random ones", "why_tests_cant": "Winners depend on all agents and on the history of confidences; random offers differ from run to run.", "anchors": ["sampo/scheduler/multi_agency/multi_agency.py: StochasticManager.run_auction, NeuralManager.run_auction, Agent.offer, Agent.confirm, Agent.update_stat"]}
{"id": "C83", "title": "Agents keep to their workers over all blocks", "statement": "When a manager distributes blocks of works over agents and each agent schedules its blocks with its own scheduler on the timeline it keeps, then whatever way the manager picks the agents: over all blocks together, at no moment an agent has more workers of a type at work than its contractors have, even if blocks of an agent overlap; every block is scheduled once with exactly its works; the schedule of a block starts all its works after all works of the blocks it depends on have finished; and inside a block precedence and lags hold as for a single schedule.", "quantifier": "all block graphs, numbers of agents, worker pools, schedulers with either timeline and their decisions, ways to pick the agent, and every history of blocks already scheduled by an agent", "why_tests_cant": "The timeline of an agent accumulates over all the blocks it won; capacity depends on the whole history and on all choices of the manager.", "anchors": ["sampo/scheduler/multi_agency/multi_agency.py:Agent.offer", "sampo/scheduler/multi_agency/multi_agency.py:Agent.confirm", "sampo/scheduler/multi_agency/multi_agency.py:Manager.manage_blocks", "sampo/scheduler/multi_agency/multi_agency.py:Manager.run_auction", "sampo/scheduler/generic.py:GenericScheduler.schedule_with_cache"]}
{"id": "C84", "title": "Accepted block schedules use no more workers than there are", "statement": "If validate_block_schedule accepts the schedule of a block graph, then agents share no contractors, every block starts after the blocks it depends on have finished, the schedule of each block is valid for its agent's contractors, and over all blocks together no contractor has more workers at work than it has.", "quantifier": "all block graphs, agents with contractors, and schedules of blocks given to the validator", "why_tests_cant": "Acceptance is a claim about all schedules that could be given to the validator; tests show single accepted and rejected ones.", "anchors": ["sampo/scheduler/multi_agency/block_validation.py:validate_block_schedule", "sampo/scheduler/multi_agency/block_validation.py:_check_block_dependencies", "sampo/scheduler/multi_agency/block_validation.py:_check_blocks_separately", "sampo/scheduler/multi_agency/block_validation.py:_check_blocks_with_global_timelines"]}
{"id": "C85", "title": "Local optimisation of a finished schedule keeps it executable", "statement": "ParallelizeScheduleLocalOptimizer, applied to a finished schedule by optimize_local of the schedule pipeline, returns a schedule of the same works in which precedence and lags still hold, with teams rearranged so that independent works run in parallel and times recalculated for them.", "quantifier": "all work graphs, schedules, orders of works, areas and both timelines", "why_tests_cant": "The only test runs it on one project and looks at the number of works; which times the result has depends on chains and orders.", "anchors": ["sampo/scheduler/utils/local_optimization.py:ParallelizeScheduleLocalOptimizer.optimize", "sampo/scheduler/utils/local_optimization.py:ParallelizeScheduleLocalOptimizer.recalc_schedule", "sampo/pipeline/default.py:DefaultSchedulePipeline.optimize_local"]}
{"id": "C86", "title": "The supply of materials keeps its promises", "statement": "Before a work is put into the schedule the supply timeline answers whether its materials can be there at a moment (can_schedule_at_the_moment) and from which moment on they can (find_min_material_time). Both answers agree. The moment found is never before the moment asked for. If the answer for a moment is yes, deliver_resources for that moment raises nothing and returns that moment. If the answer is no, the delivery would come later. The moment found is one for which the answer is yes.", "quantifier": "all landscapes, all histories of deliveries, all works, all moments", "why_tests_cant": "The answers depend on all bookings of depots, roads, vehicles and platforms made before; the questions and the delivery walk through them on separate code paths, and a test sees them agree only on its own history.", "anchors": ["sampo/scheduler/timeline/hybrid_supply_timeline.py: can_schedule_at_the_moment, _can_deliver_to_time, find_min_material_time, deliver_resources, _supply_resources", "sampo/scheduler/timeline/platform_timeline.py: can_schedule_at_the_moment, find_min_material_time_with_additional, get_material_for_delivery"]}
{"id": "C87", "title": "Generated additional works leave the plan as it is and follow the given probabilities", "statement": "DefaultStructureEstimator.restruct gives a work graph with all works of the given one, their links and new works. Every new work belongs to a work that is not a service unit, comes after it and before the finish, takes place in its zones and has no other links; nothing else changes: between the given works exactly the same ones have to come before others, and building the new work graph ends. Which works are generated follows the probabilities of the generator: one random number for every entry, a work exactly if the number is below the probability, so never for probability 0 and always for probability 1. With the default generator the probabilities set for a name are used for the works of that name.", "quantifier": "all work graphs without cycles, all generators, probabilities, volumes and random numbers, all calls that set probabilities", "why_tests_cant": "Generation is random and depends on the number of works and entries; a test sees a few graphs and seeds and cannot show that no choice creates a cycle or changes the order of given works.", "anchors": ["sampo/schemas/structure_estimator.py: DefaultStructureEstimator.restruct, _gen_sub_works, _construct_sub_work", "sampo/schemas/structure_estimator.py: DefaultStructureGenerationEstimator", "sampo/structurator/prepare_wg_copy.py: prepare_work_graph_copy", "sampo/schemas/works.py: WorkUnit.__init__"]}
{"id": "C88", "title": "The computational backend does not change what is computed", "statement": "A computational backend evaluates chromosomes for the task and the settings it was given last, in the order in which the chromosomes are given, whatever it was asked before. The multiprocessing backend gives the same values as the default one. Both make a first population of the requested size from the heuristics that found a schedule and from randomized schedules; its individuals can be decoded.", "quantifier": "all sequences of cache_scheduler_info, cache_genetic_info, compute_chromosomes and generate_first_population calls, all tasks, estimators, settings, fitness functions and chromosomes; all population sizes, weights and results of heuristics", "why_tests_cant": "A stale toolbox or pool shows only after particular sequences of calls with changing tasks; tests use one task with default estimators and one backend.", "anchors": ["sampo/backend/default.py:DefaultComputationalBackend", "sampo/backend/multiproc.py:MultiprocessingComputationalBackend", "sampo/scheduler/genetic/operators.py:generate_chromosomes", "sampo/scheduler/genetic/base.py:GeneticScheduler.generate_first_population", "sampo/schemas/time_estimator.py:DefaultWorkEstimator.get_recreate_info"]}
{"id": "C89", "title": "A list scheduler turns every work graph that can be staffed into a valid schedule", "statement": "schedule_with_cache of HEFT, HEFTBetween, LFT, randomized LFT and the topological schedulers, taken as a whole (collapse of inseparable chains, prioritization, choice of teams, placement on a timeline), returns for every acyclic work graph whose works can be staffed a schedule that contains each work once, starts no work before finish plus lag of a predecessor, gives each inseparable chain to one contractor and one team that meet the requirements of its head, and never uses more workers than the contractors own. With materials and zones it may raise, but what it returns is valid.", "quantifier": "all work graphs with finish-start edges, all priorities that agree with the dependencies between chains, all contractors, requirements, specifications, estimators, cost functions, random draws and orders of sets; both timelines", "why_tests_cant": "The claim composes four algorithms over all graphs, priorities and staffs; tests run each of them, or the whole, on a few graphs. That a consistent set of priorities is not enough shows up only when a chain and a priority group interact.", "anchors": ["sampo/scheduler/generic.py:GenericScheduler.schedule_with_cache", "sampo/scheduler/lft/base.py:LFTScheduler.schedule_with_cache", "sampo/scheduler/utils/__init__.py:get_head_nodes_with_connections_mappings", "sampo/scheduler/heft/prioritization.py:prioritization", "sampo/scheduler/lft/prioritization.py:lft_prioritization", "sampo/scheduler/topological/base.py:TopologicalScheduler"]}
{"id": "C90", "title": "Works of smaller priority numbers are taken first", "statement": "HEFT, LFT and the topological schedulers take the works (inseparable chains, each with the priority of its first work) in an order in which no work comes after a work with a greater priority number, whatever costs, durations, orders of sets and random draws are. Randomized LFT does so too if no chain has a smaller priority number than a chain it depends on.", "quantifier": "all work graphs, priorities, costs, durations, random draws and orders inside levels", "why_tests_cant": "Tests compare a few orders on graphs with one or two priority groups; that a random choice among eligible works never lets a less urgent work pass a more urgent one that is not yet eligible has to hold for every draw and every graph.", "anchors": ["sampo/scheduler/heft/prioritization.py:prioritization", "sampo/scheduler/lft/prioritization.py:lft_prioritization", "sampo/scheduler/lft/prioritization.py:lft_randomized_prioritization_core", "sampo/scheduler/topological/base.py:TopologicalScheduler._topological_sort", "sampo/utilities/priority.py:extract_priority_groups_from_nodes"]}
{"id": "C91", "title": "A valid schedule becomes a valid chromosome with the same teams", "statement": "The tables the genetic scheduler computes from a project describe it: all inseparable chains are numbered, the dependencies between the numbers are those between the chains, limits, capacities and allowed contractors are those of requirements, contractors and specification. Every valid schedule of the project, together with an order of its chains that respects dependencies and priorities (in particular the result of HEFT, LFT, randomized LFT or a topological scheduler), is converted by convert_schedule_to_chromosome without an exception into a chromosome that passes the validity check and has the same order, the same team and the same contractor for every work and the capacities of the contractors as borders.", "quantifier": "all work graphs, contractors, requirements, priorities, specifications and valid schedules", "why_tests_cant": "Tests convert the results of a few heuristics on generated graphs with one set of contractors; that tables, check and conversion agree has to hold for every project, every numbering and every valid schedule.", "anchors": ["sampo/scheduler/genetic/utils.py:prepare_optimized_data_structures", "sampo/scheduler/genetic/converter.py:convert_schedule_to_chromosome", "sampo/scheduler/genetic/operators.py:is_chromosome_correct"]}
{"id": "C92", "title": "The genetic scheduler returns only valid schedules", "statement": "Started from valid schedules of other schedulers, the genetic scheduler raises no exception in any generation, with or without a deadline, and every chromosome in its hall of fame is decoded (parallel scheme) to a valid schedule: every work once, precedence with lags, inseparable chains in one piece by one team, teams of allowed contractors that meet the requirements, and never more workers of a contractor busy than it has.", "quantifier": "all projects, first populations of valid schedules, random draws, fitness functions, selections, numbers of generations, deadlines", "why_tests_cant": "Tests run the scheduler a few times with some seeds and check single results; validity has to survive every sequence of random mating, mutation and selection and the decoding of whatever chromosome wins.", "anchors": ["sampo/scheduler/genetic/schedule_builder.py:build_schedules_with_cache", "sampo/scheduler/genetic/schedule_builder.py:make_offspring", "sampo/scheduler/genetic/converter.py:convert_chromosome_to_schedule", "sampo/scheduler/genetic/converter.py:parallel_schedule_generation_scheme"]}
{"id": "C93", "title": "The extended sorted list replaces the item it is told to and stays in order", "statement": "Merging a value into an ExtendedSortedList changes exactly the item that has the same key, by the given function, or inserts the value at its place if there is no such item; assigning to a position replaces exactly the item at that position. The list stays in order, its length is right, and a list filled only by merge has for every key that came one item: the values of that key merged in the order they came.", "quantifier": "all lists, key functions, values, merging functions that keep the key, positions, ways the library splits its sublists, and all sequences of merges", "why_tests_cant": "The internal structure has sublists whose borders depend on the whole history; the paths for a key beyond the last, for the first position of a sublist and for an equal key differ and cannot all be visited.", "anchors": ["sampo/schemas/sorted_list.py:ExtendedSortedList.merge", "sampo/schemas/sorted_list.py:ExtendedSortedList.__setitem__"]}
{"id": "C94", "title": "A transport network shows the roads that were laid", "statement": "Whatever the order in which nodes of a transport network were created, joined by roads and read, LandGraph(nodes) can be built exactly when the nodes are different, each has a road and no road leaves them; its matrix is symmetric and has for two nodes the length of the road laid last between them, infinity if there is none; edges lists every road once with its ends, length and bandwidth, and neighbours lists the other ends of the roads of a node; the works of a node are those given when it was created and those added since, in order.", "quantifier": "all histories of creating nodes, adding roads and works and reading neighbours, and all lists of nodes", "why_tests_cant": "Values are remembered at the first reading, so the answer depends on the whole history of calls.", "anchors": ["sampo/schemas/landscape_graph.py:LandGraphNode", "sampo/schemas/landscape_graph.py:LandGraph"]}
{"id": "C95", "title": "The pipeline with automatic lag optimization does the project that was given", "statement": "For a project with finish-start, lagged finish-start, start-start and finish-finish edges and contractors that suffice, the default pipeline with automatic lag optimization and the LFT or HEFT scheduler ends with a schedule of the divided works. In it each given work has stages, all scheduled once, one after another, by one team of one contractor of the list that meets the requirements of the work; nothing else is scheduled; all edges of the given project hold between the begin of the first and the end of the last stage of the works; no contractor has more workers busy than it owns; with LFT nothing starts before the given start time.", "quantifier": "all projects, priorities, contractors given or generated, estimators, settings and start times", "why_tests_cant": "Correction of priorities, division into stages, collapse of chains, prioritization, team search and timelines work one after another; each assumes something of the result of the previous one, and only a proof shows that these assumptions are met for every project.", "anchors": ["sampo/pipeline/default.py:DefaultInputPipeline.schedule", "sampo/structurator/base.py:graph_restructuring", "sampo/scheduler/lft/base.py:LFTScheduler.schedule_with_cache", "sampo/scheduler/heft/base.py:HEFTScheduler", "sampo/scheduler/generic.py:GenericScheduler.schedule_with_cache"]}
{"id": "C96", "title": "Works that need a zone in different states never overlap in a schedule", "statement": "In every schedule that HEFT, LFT, randomized LFT or the topological scheduler returns for a site with zones, two works that need the same zone in different (stated) statuses are never being done at the same time; and if works can be staffed, materials do not limit and all zones are known, a schedule is returned, it contains all works, keeps all dependencies and pools, and respects the zones.", "quantifier": "every work graph, order rule, team choice, set of contractors, set of zones, zone requirements, cost table, material state, start time and both timelines", "why_tests_cant": "The zone search, the worker search and the lags of chains are interleaved in one loop, and a zone's bookkeeping of one work decides the search for all later ones; a test sees one project, while an overlap depends on the whole history of placements.", "anchors": ["sampo/scheduler/timeline/zone_timeline.py: find_min_start_time, update_timeline", "sampo/scheduler/timeline/just_in_time_timeline.py: find_min_start_time_with_additional, schedule, _schedule_with_inseparables", "sampo/scheduler/timeline/momentum_timeline.py: find_min_start_time_with_additional, schedule", "sampo/scheduler/generic.py: build_scheduler", "sampo/scheduler/lft/base.py: build_scheduler"]}
{"id": "C97", "title": "In a schedule every work starts when its materials arrive, and depots and roads are respected", "statement": "In every schedule that HEFT, LFT, randomized LFT or the topological scheduler returns for a site with depots, roads and platforms, each work has exactly one request for materials; it starts exactly when the delivery is complete, everything delivered left a depot before; all deliveries of the schedule together take no more from a depot than it has, put no more vehicles on a road than it can take, use no more vehicles than a depot has, and bring each platform what its works need.", "quantifier": "every work graph, order rule, team choice, landscape, need of materials, zone configuration, start time and both timelines", "why_tests_cant": "The supply timeline is asked once in the search and once more when a work is placed, with other times and after other works of the chain; stocks and roads are shared by the deliveries of the whole schedule, so a test sees one history of bookings out of unboundedly many.", "anchors": ["sampo/scheduler/timeline/hybrid_supply_timeline.py: deliver_resources, find_min_material_time", "sampo/scheduler/timeline/platform_timeline.py: PlatformTimeline", "sampo/scheduler/timeline/just_in_time_timeline.py: find_min_start_time_with_additional, _schedule_with_inseparables", "sampo/scheduler/timeline/momentum_timeline.py: find_min_start_time_with_additional, _schedule_with_inseparables", "sampo/scheduler/generic.py: build_scheduler", "sampo/scheduler/lft/base.py: build_scheduler"]}
{"id": "C98", "title": "Deliveries of the to-start supply timeline", "statement": "Whatever deliver_resources calls are made on a ToStartSupplyTimeline: no depot gives away more than its stock, no road carries more vehicles than it can take, materials arrive not before the moment asked for and leave one existing depot before; nearer depots are preferred to depots that neither leave nor arrive earlier; if can_schedule_at_the_moment answers yes the delivery arrives at that moment; and the materials arrive in time whenever a depot can bring them by then.", "quantifier": "every landscape, every sequence of works and moments, every depot, road and material", "why_tests_cant": "All deliveries share stocks and roads, and the depot is chosen by a search over moments whose outcome depends on all bookings made before.", "anchors": ["sampo/scheduler/timeline/to_start_supply_timeline.py: ToStartSupplyTimeline.deliver_resources, can_schedule_at_the_moment, find_min_material_time, _supply_resources"]}
{"id": "C99", "title": "The genetic scheduler's schedules respect zones and materials", "statement": "On a landscape with zones, depots, roads and platforms, every schedule that the genetic scheduler decodes from a chromosome of its hall of fame respects them: works that need a zone in different statuses are never done at the same time (if changes of status cost nothing); every work starts exactly when its materials arrive, which left a depot before; no depot gives more of a material than it has; no road is overcrowded. A schedule that contains all works is also valid (each work once, precedence, chains, teams, capacity).", "quantifier": "all projects without works marked as independent, all landscapes with roads of positive length and zones whose changes of status are free, all initial schedules, fitness functions, selections, random draws, numbers of generations and deadlines, all members of the hall of fame", "why_tests_cant": "the decoder asks zones and supply at moments that depend on the whole chromosome, on all earlier placements and on random mutations; a test sees a few chromosomes on one landscape", "anchors": ["sampo/scheduler/genetic/converter.py: parallel_schedule_generation_scheme", "sampo/scheduler/timeline/just_in_time_timeline.py: JustInTimeTimeline.can_schedule_at_the_moment, _schedule_with_inseparables", "sampo/scheduler/timeline/zone_timeline.py: ZoneTimeline.can_schedule_at_the_moment, update_timeline", "sampo/scheduler/timeline/hybrid_supply_timeline.py: HybridSupplyTimeline.can_schedule_at_the_moment, deliver_resources", "sampo/scheduler/genetic/schedule_builder.py: build_schedules_with_cache"]}
{"id": "C100", "title": "Zones in the chromosomes of the genetic scheduler", "statement": "The zone part of a chromosome says which status every zone should have after every work. Crossover gives, for every work, the row of one parent to one child and that of the other parent to the other child. Mutation writes the drawn statuses, all of them and in their order, at the drawn places and changes nothing else. In all generations the part is a matrix of available statuses for all works and zones. Decoding in the serial scheme carries the changes out and returns a schedule.", "quantifier": "all numbers of works, zones and statuses, all results of the random generator, any number of crossovers and mutations; for decoding all projects, chromosomes and landscapes", "why_tests_cant": "operators act on random rows and places over many generations, and the serial scheme is not the default, so tests decode with zones in the parallel scheme only", "anchors": ["sampo/scheduler/genetic/operators.py: mate_for_zones, mutate_for_zones", "sampo/scheduler/genetic/converter.py: convert_schedule_to_chromosome, serial_schedule_generation_scheme", "sampo/scheduler/timeline/momentum_timeline.py: MomentumTimeline.schedule", "sampo/scheduler/timeline/zone_timeline.py: ZoneTimeline.find_min_start_time"]}
{"id": "C101", "title": "The preparation pipeline builds the graph and the contractors that were given", "statement": "PreparationPipeline works with the project, history, contractors and structure estimator given last, whatever the order of calls. build_wg on a table gives a work graph with exactly the works of the table: without fix_edges_with_history and fill_edges_with_history exactly its links, whatever history is given; with fill_edges_with_history its links unchanged, plus links from history; with fix_edges_with_history also types and lags from history. A structure estimator adds works and leaves the links of the table's works as they are. build_wg_and_contractors gives the same graph together with exactly the contractors of the list or of the rows of the file (id, name and the number of workers in every further column), or as many generated ones as asked for, each sufficient for all requirements.", "quantifier": "all tables, histories, contractor lists and files, orders of calls, and structure estimators", "why_tests_cant": "The result depends on every combination of options, inputs and orders of calls; tests build a few pipelines on sample files.", "anchors": ["sampo/pipeline/preparation.py:PreparationPipeline", "sampo/userinput/parser/csv_parser.py:CSVParser.work_graph_and_contractors", "sampo/userinput/parser/csv_parser.py:CSVParser.read_graph_info"]}
{"id": "C102", "title": "Materials do not delay works the search has placed", "statement": "When a scheduler has looked for a start of a work - asking workers, materials and zones - and places the work there, the materials of the work arrive at exactly that start: on a momentum timeline for every list scheduler, and for every schedule decoded by the genetic scheduler. A work never waits with its team on site for a delivery that the search had promised.", "quantifier": "all projects, landscapes, zones, contractors, teams and durations, all orders of works; for the genetic scheduler all valid chromosomes and all members of the hall of fame for any draws and any number of generations", "why_tests_cant": "The search and the booking use two different pieces of code that must agree for every state of depots, roads and platforms which earlier works leave behind; a test sees a few such states.", "anchors": ["sampo/scheduler/timeline/momentum_timeline.py:find_min_start_time_with_additional", "sampo/scheduler/timeline/momentum_timeline.py:_schedule_with_inseparables", "sampo/scheduler/timeline/just_in_time_timeline.py:can_schedule_at_the_moment", "sampo/scheduler/timeline/hybrid_supply_timeline.py:find_min_material_time", "sampo/scheduler/genetic/converter.py:parallel_schedule_generation_scheme"]}
{"id": "C103", "title": "Independent works have their workers for themselves in the whole schedule", "statement": "If a work is marked as independent in the schedule specification, then in the returned schedule no work of another chain that uses workers of the same type of the same contractor overlaps with it (or with the works of its inseparable chain), whichever of the two was placed first.", "quantifier": "all work graphs, landscapes, zones, contractors, orders of works and teams, for LFT, HEFT and the topological schedulers", "why_tests_cant": "The property compares every independent work with every other work of the finished schedule; it must hold for works placed before and after it, in any order and for any teams.", "anchors": ["sampo/schemas/schedule_spec.py:WorkSpec.is_independent", "sampo/scheduler/timeline/just_in_time_timeline.py:update_timeline", "sampo/scheduler/timeline/just_in_time_timeline.py:find_min_start_time_with_additional", "sampo/scheduler/timeline/momentum_timeline.py:_find_min_start_time", "sampo/scheduler/generic.py:GenericScheduler.build_scheduler", "sampo/scheduler/lft/base.py:LFTScheduler.build_scheduler"]}
{"id": "C104", "title": "Deadline-driven scheduling returns valid schedules and keeps deadlines it has seen to be kept", "statement": "For every deadline the deadline-driven scheduler over HEFT or a topological scheduler returns a schedule. It is valid: every work once, precedence, inseparable chains, teams within the requirements, no worker in two places. The works marked independent in the returned specification do not share their workers with others at the same time. The schedule ends by the deadline if the schedule with the minimum of resources ends before it, or if one of the resource levels tried does.", "quantifier": "all work graphs with dependencies, contractors, requirements, durations, prioritizations and deadlines", "why_tests_cant": "The search runs the scheduler some twenty times with levels of resources that depend on the results before; each of these runs must succeed and the last must be valid for every project and deadline.", "anchors": ["sampo/scheduler/resources_in_time/average_binary_search.py:AverageBinarySearchResourceOptimizingScheduler.schedule_with_cache", "sampo/scheduler/resource/average_req.py:AverageReqResourceOptimizer.optimize_resources", "sampo/scheduler/generic.py:GenericScheduler.schedule_with_cache", "sampo/scheduler/lft/base.py:LFTScheduler.schedule_with_cache"]}
{"id": "C105", "title": "The terms given in a schedule specification are kept in the whole schedule", "statement": "A ScheduleSpec remembers, for each work and each kind of term, the last value given. In every schedule the list schedulers return for it: (1) the contractor of a work is one of those assigned to it; (2) the team has exactly the assigned number of workers of each type; (3) the work lasts exactly the assigned execution time; (4) a work marked independent shares its worker types with nobody at the same time. And a project that can be staffed within the terms gets a schedule. Where works are inseparable, the terms are those of the first work of the chain and the time is that of the whole chain.", "quantifier": "every sequence of calls on the specification, work graph, order, contractor list, requirement list, estimator, landscape, timeline and project start; assigned times are not negative", "why_tests_cant": "the terms pass through team search, prioritization, the timeline and the splitting of times over chains; a test fixes one project and one specification, while an ignored term shows only for particular combinations of chains, contractors and free slots", "anchors": ["sampo/schemas/schedule_spec.py: ScheduleSpec, WorkSpec", "sampo/scheduler/generic.py: GenericScheduler.build_scheduler", "sampo/scheduler/lft/base.py: LFTScheduler.build_scheduler", "sampo/scheduler/timeline/utils.py: get_exec_times_from_assigned_time_for_chain", "sampo/scheduler/timeline/just_in_time_timeline.py: JustInTimeTimeline.schedule", "sampo/scheduler/timeline/momentum_timeline.py: MomentumTimeline.schedule"]}
{"id": "C106", "title": "LFT spreads the works evenly over the contractors", "statement": "The LFT scheduler chooses a contractor and a team for every chain of works before it places anything: (1) if every work can be staffed, every chain gets a contractor allowed for it with a team that meets its requirements, also when contractors are drawn at random; (2) the chosen contractor is never slower than one that has no more works so far, and never busier than one that is as fast; (3) if all contractors can do all works equally well, the numbers of chains they do in the final schedule differ by at most one; (4) in the randomized version every contractor has a positive chance; (5) the whole scheduler, with this choice, returns a valid schedule for every project that can be staffed.", "quantifier": "every work graph without cycles between chains, contractor list, requirement list, specification, estimator with non-negative times, priorities that agree with the dependencies, random choices and number of works", "why_tests_cant": "the choice for a work depends on the choices for all works before it through a shared counter; whether the counter stays true to the assignments shows only over long sequences of works with different sets of able contractors", "anchors": ["sampo/scheduler/lft/base.py: LFTScheduler._contractor_workers_assignment, schedule_with_cache, _get_contractor_index", "sampo/scheduler/lft/base.py: RandomizedLFTScheduler._get_contractor_index", "sampo/scheduler/lft/base.py: get_contractors_and_workers_amounts_for_work", "sampo/scheduler/lft/time_computaion.py: get_chain_duration"]}
{"id": "C107", "title": "Order optimizers of a pipeline and the schedule", "statement": "A pipeline can apply optimizers to the order of works before a generic scheduler places them: (1) optimizers that turn good orders into good orders keep every guarantee of the scheduler, however many are queued; (2) swapping works inside an area that leaves out the first or the last work of the project gives exactly the schedule without the optimizer; (3) an area that ends behind the last work raises an error; (4) the schedule is valid whatever the area.", "quantifier": "every work graph with one start and one finish, prioritization rule that gives good orders, list of areas or optimizers, team choice, site and timeline", "why_tests_cant": "the effect of an optimizer on the schedule goes through the order, the chains of inseparable works and the timeline; whether a swap can ever be harmful depends on the whole graph and on the position and length of the area", "anchors": ["sampo/pipeline/default.py: DefaultInputPipeline.optimize_local, schedule (LocalOptimizedScheduler)", "sampo/pipeline/delegating.py: DelegatingScheduler", "sampo/schemas/apply_queue.py: ApplyQueue", "sampo/scheduler/utils/local_optimization.py: SwapOrderLocalOptimizer"]}
{"id": "C108", "title": "The pipeline without automatic lag optimization does the project", "statement": "DefaultInputPipeline.schedule on a ready work graph, with lag optimization switched on or off: (1) it refuses the contractors exactly if some work cannot be done by any of them, and never refuses generated contractors; (2) with contractors that suffice it ends, with one schedule of the given graph, which contains every work exactly once, respects the dependencies, chains, contractor capacities and team limits, with HEFT and with LFT, whatever priorities the works were given; (3) no guarantee of HEFT is lost by queued order optimizers that keep good orders.", "quantifier": "every work graph of dependencies and inseparable chains, priorities, requirements, contractors (given or generated), start time, work estimator with bounded estimates, site without zone and material limits", "why_tests_cant": "the result goes through the correction of priorities, the contractor check, the order of works, the team choice and the timeline; that they fit together for every project is a statement about all graphs and all priorities", "anchors": ["sampo/pipeline/default.py: DefaultInputPipeline.schedule, LocalOptimizedScheduler", "sampo/utilities/priority.py: check_and_correct_priorities", "sampo/scheduler/utils/__init__.py", "sampo/scheduler/heft/base.py: HEFTScheduler", "sampo/scheduler/lft/base.py: LFTScheduler"]}
{"id": "C109", "title": "The priority queue after every history of calls", "statement": "PriorityQueue: after any history of add, extract_extremum, replace and decrease_key, (1) extract_extremum gives a value with the greatest key among those put in and not yet taken (the smallest key if descending), of equal keys the one put in last, and raises an error exactly if none is left; (2) the length is the number of values left; (3) emptying a queue gives its values in order; (4) decrease_key moves a value whose key has changed to its new place.", "quantifier": "every initial list of values, key function, direction and history of calls", "why_tests_cant": "what comes out depends on the whole history of calls, ties between keys and when keys change; tests try a few sequences of distinct numbers", "anchors": ["sampo/utilities/priority_queue.py: PriorityQueue"]}
{"id": "C110", "title": "The search for the minimum of a function of one number", "statement": "dichotomy_float with a positive tolerance ends for every function, asks for it only inside the given interval and returns a number of the interval; if the function falls strictly until a point and rises strictly from there, the answer is at most the tolerance below this point and never above it. With tolerance 0 it does not end, and a function with a constant part can mislead it.", "quantifier": "every function, interval and positive tolerance, in exact arithmetic", "why_tests_cant": "the number of rounds and the answer depend on all values of the function on the way; tests try a few functions", "anchors": ["sampo/utilities/base_opt.py: dichotomy_float"]}
{"id": "C111", "title": "Validation does not reject the schedules of the schedulers", "statement": "With validate=True a list scheduler returns the same schedule as without it, for every prioritization that gives good orders and every choice of allowed teams, provided that lags are not negative, the works of an inseparable chain have the same requirements and the same allowed contractors, and service works take no time; every schedule that keeps the order, the capacities and the requirements passes, in whatever order its rows are. Without the first two provisions a schedule the scheduler itself makes is rejected.", "quantifier": "every work graph, contractors, requirements, specification, estimator, prioritization, plan of teams, order of rows and state of the site", "why_tests_cant": "the check compares all works with all others at all moments; the tests validate schedules of a few generated graphs, which have no negative lags", "anchors": ["sampo/scheduler/generic.py: GenericScheduler.schedule_with_cache", "sampo/scheduler/lft/base.py: LFTScheduler.schedule_with_cache", "sampo/scheduler/genetic/base.py: GeneticScheduler.generate_first_population", "sampo/utilities/validation.py: validate_schedule"]}
{"id": "C112", "title": "The genetic scheduler returns valid schedules, not worse than its heuristics", "statement": "For a project whose lags are not negative, whose inseparable chains consist of works that are alike, and in which each work has an allowed contractor with enough workers, the genetic scheduler without a deadline ends without an exception: the seven heuristic schedules are made and pass validation, they are converted, the first population is made, any number of generations is run, and each member of the hall of fame is decoded to a valid schedule of all works within a known time. With validate=True the result is the same, provided that service works are not parts of inseparable chains. With one objective and a population of at least nine, exactly one schedule is returned and its chromosome is at least as good as those of all seven heuristic schedules.", "quantifier": "every project, specification and estimator meeting the provisions, every sequence of random draws, every fitness, selection, number of generations, population size and list of positive weights", "why_tests_cant": "the result depends on thousands of random draws; tests fix a seed or check one run on a small graph", "anchors": ["sampo/scheduler/genetic/base.py: GeneticScheduler.generate_first_population", "sampo/scheduler/genetic/base.py: GeneticScheduler.schedule_with_cache", "sampo/scheduler/genetic/utils.py: init_chromosomes_f", "sampo/scheduler/genetic/operators.py: generate_chromosomes", "sampo/scheduler/genetic/schedule_builder.py: build_schedules_with_cache"]}
{"id": "C113", "title": "The genetic scheduler with the serial scheme returns valid schedules", "statement": "Under the provisions of C112, on a landscape without zones and with no times given in the specification: with `sgs_type=Serial` every valid chromosome is decoded, without an exception, to a valid schedule of all works that starts not before the assigned start time and finishes within works * (largest lag + largest duration) after it. Hence the genetic scheduler, run with the serial scheme for any number of generations with any draws, ends without an exception and returns at least one schedule, all of them valid; validating them at the end changes nothing.", "quantifier": "every project, specification and estimator meeting the provisions, every valid chromosome, every sequence of random draws, every fitness, selection, number of generations, population size and list of positive weights", "why_tests_cant": "the decoded chromosomes come out of thousands of random draws; a test sees the few that one seed produces", "anchors": ["sampo/scheduler/genetic/converter.py: serial_schedule_generation_scheme", "sampo/scheduler/genetic/converter.py: convert_chromosome_to_schedule", "sampo/scheduler/genetic/base.py: GeneticScheduler.schedule_with_cache", "sampo/scheduler/genetic/schedule_builder.py: build_schedules_with_cache"]}
{"id": "C114", "title": "Collection helpers lose nothing that is distinct and keep the order", "statement": "`flatten` of any nested iterable yields exactly the values at all places, each once, in the order of the places. `build_index` has each key once and gives for it the value of the last item with that key; with distinct keys there is one entry per item in the order of the items. `reverse_dictionary` applied twice gives the dictionary back. `first` returns the first element that meets the condition and None if there is none.", "quantifier": "every finite nested iterable of any depth, every list of items, every dictionary, every condition", "why_tests_cant": "nesting depth, repeated keys and repeated values are unbounded; tests try a few literals", "anchors": ["sampo/utilities/collections_util.py: flatten", "sampo/utilities/collections_util.py: build_index", "sampo/utilities/collections_util.py: reverse_dictionary", "sampo/utilities/collections_util.py: first"]}
{"id": "C115", "title": "The pipeline with the genetic scheduler does the project that was given", "statement": "For a project meeting the provisions of C112 with equal priorities, whatever priorities its works have (chains entered at their heads, or all equal), the default pipeline with lag optimization switched on or off and the genetic scheduler, with the parallel or the serial scheme, accepts the contractors, raises nothing, and ends with exactly the given graph, the given or generated contractors and at least one schedule; every schedule contains all works, respects dependencies, capacities and requirements, and finishes within a known time.", "quantifier": "every project, list or generation method of contractors, estimator, setting of the genetic scheduler, sequence of random draws", "why_tests_cant": "composition of priority correction, acceptance check, heuristics, evolution and decoding over all projects and draws", "anchors": ["sampo/pipeline/default.py: DefaultInputPipeline.schedule", "sampo/scheduler/genetic/base.py: GeneticScheduler.schedule_with_cache", "sampo/utilities/priority.py: check_and_correct_priorities"]}
{"id": "C116", "title": "The tables of a finished pipeline show the schedules that were made", "statement": "pipeline.schedule(scheduler).finish(), for a project that meets the provisions of C108 or C115, with non-negative lags, one finish that all works lead to, and model names with equally many parts: with HEFT, LFT and the genetic scheduler, finish returns one project per schedule that was made, in the same order, and no call raises. The table of each schedule has exactly one row for every work, with the name, volume, start, finish, duration, contractor and team given to that work; rows are ordered by start and no work is above one it depends on; execution_time is the latest finish of all works; and every work is found by its identifier in to_schedule_work_dict.", "quantifier": "all projects, contractors, schedulers, random draws, orders in which sets are iterated, names and volumes of works", "why_tests_cant": "the schedule passes twice through a data frame that is sorted by an order computed from start times and dependencies, and through dictionaries; that nothing is lost or swapped for any schedule is a statement about all schedules", "anchors": ["sampo/pipeline/default.py: DefaultSchedulePipeline.__init__, DefaultSchedulePipeline.finish", "sampo/schemas/schedule.py: Schedule.from_scheduled_works, to_schedule_work_dict, execution_time", "sampo/scheduler/generic.py: GenericScheduler.schedule_with_cache", "sampo/schemas/scheduled_work.py: ScheduledWork"]}
{"id": "C117", "title": "From a list of works to the table of a valid schedule", "statement": "WorkGraph.from_nodes(works), given to the pipeline with a list of contractors and HEFT, LFT or the genetic scheduler: for any non-empty list of works connected by dependencies without negative lags and without cycles, with inseparable chains that are entered at their heads, sound requirements, contractors with an entry for every required kind, and some contractor able to do each work, the graph is built without an error, its works are the given ones and the new start and finish, each once, and it has the given dependencies and beside them only those of works without predecessors on the start and of the finish on works without successors; the pipeline accepts the contractors, ends with a schedule that keeps all dependencies and never uses more workers than there are, and finish returns one project whose table shows that schedule. With the genetic scheduler, given contractors with an entry for every kind, equal requirements inside chains, bounded lags and durations and time enough, finish returns a project for every schedule it found, at least one, and each table shows a schedule that keeps all dependencies and never uses more workers than there are.", "quantifier": "all works, dependencies, requirements, priorities, contractors, settings and orders in which sets are iterated", "why_tests_cant": "it composes the construction of the graph, its traversal, the correction of priorities, the check of contractors, the scheduler and the tables for every list of works", "anchors": ["sampo/schemas/graph.py: WorkGraph.from_nodes, WorkGraph.reinit", "sampo/pipeline/default.py: DefaultInputPipeline.schedule, DefaultSchedulePipeline.finish", "sampo/scheduler/heft/base.py: HEFTScheduler", "sampo/scheduler/lft/base.py: LFTScheduler", "sampo/scheduler/genetic/base.py: GeneticScheduler"]}
{"id": "C118", "title": "The numbers that describe a work graph", "statement": "encode_graph(wg) returns, for every work graph, a description of thirteen numbers that depends on the graph alone: the number of works, the mean volume and the mean number of workers per work, the greatest number of children per work, the length of the longest path and eight degrees of parallelism between 0 and 1, each the mean of an eighth of the levels, where no work is counted twice in a level and no reachable work is left out; one_hot_decode gives back the index that one_hot_encode was given; metric_resource_constrainedness returns, per type of workers, the number of requirements divided by the sum of their volumes.", "quantifier": "all work graphs, volumes, requirements, indices and orders in which sets are iterated", "why_tests_cant": "the levels are sets, whose order differs from run to run, and whether the loop over them ends and misses no work depends on every path of the graph", "anchors": ["sampo/scheduler/selection/metrics.py: encode_graph, metric_graph_parallelism_degree, metric_longest_path, metric_relative_max_children, metric_relative_max_parents, metric_resource_constrainedness, metric_average_work_per_activity, metric_average_resource_usage, one_hot_encode, one_hot_decode"]}
{"id": "C119", "title": "Names of works are mapped as the table says, and back", "statement": "A name mapper read from a table or file: mapper[name] is the unique name in the last row for that name, other names stay as they are; the inverse mapper gives every name back; mapper.get(name) answers as mapper[name] does; in a table of works every name is mapped in its own row, and without a mapper names stay as they are.", "quantifier": "all tables of names and all names", "why_tests_cant": "dictionaries keep one value per key, so whether the inverse is an inverse depends on repetitions anywhere in the table", "anchors": ["sampo/utilities/name_mapper.py: get_task_name_unique_mapping, get_inverse_task_name_mapping, read_json, DictNameMapper, DummyNameMapper", "sampo/userinput/parser/csv_parser.py: CSVParser.work_graph"]}
{"id": "C120", "title": "Sampled works keep the given limits, similar works are scaled", "statement": "Sampler.work_unit answers, whatever is drawn, a work with the given name, group and id (a new id if none is given), a volume within the given limits and one to six requirements for different types of workers, each with a whole volume within its limits and the given counts; it raises an error exactly if the range of requirement volumes is empty. Sampler.similar_work_unit multiplies the volume of the work and of each requirement by the scalar, keeps group, types and least counts, rounds the scaled greatest count to a nearest integer and never goes below the least count; with the scalar 1 it copies the exemplar.", "quantifier": "all outcomes of the random draws, all limits, names, ids and groups; all exemplars and scalars", "why_tests_cant": "tests see the draws of a few seeds; the limits must hold for all of them", "anchors": ["sampo/utilities/sampler/__init__.py: Sampler.work_unit, Sampler.similar_work_unit", "sampo/utilities/sampler/works.py: get_work_unit, get_similar_work_unit", "sampo/utilities/sampler/requirements.py: get_worker_req, get_worker_reqs_list", "sampo/schemas/requirements.py: WorkerReq.scale_all"]}
{"id": "C121", "title": "Requirements in a table of works become requirements of its works", "statement": "In a table with the columns min_req and max_req (and req_volume, which to_frame writes) every work read by CSVParser gets exactly one requirement for each kind of workers with 0 < min_req <= max_req, with these counts and the given volume, and is a service work exactly if it gets none; requirements saved by to_frame come back as they were.", "quantifier": "all tables, all dictionaries in their cells, all estimators and all orders in which sets are iterated", "why_tests_cant": "which requirements survive depends on the kinds named in every cell and on the estimator's answers for all rows", "anchors": ["sampo/userinput/parser/general_build.py: preprocess_graph_df, build_work_graph", "sampo/userinput/parser/csv_parser.py: CSVParser.work_graph", "sampo/schemas/graph.py: WorkGraph.to_frame", "sampo/schemas/time_estimator.py: DefaultWorkEstimator.find_work_resources"]}
{"id": "C122", "title": "Volumes, zone statuses, descriptions, groups and priorities in a table of works", "statement": "Every work read by CSVParser from a table has the volume in its row, where a decimal comma counts as a point, and the zone statuses, description, group and priority given in the columns required_statuses, description, group and priority; without such a column it needs no status, has an empty description, the group 'main project' and priority 1. Tables as documented, with a dictionary in required_statuses or with empty optional cells, are read.", "quantifier": "all tables, with every combination of the optional columns, and all cells", "why_tests_cant": "the outcome depends on the kind and text of every cell of every row", "anchors": ["sampo/userinput/parser/general_build.py: preprocess_graph_df, build_work_graph", "sampo/userinput/parser/csv_parser.py: CSVParser.read_graph_info", "sampo/schemas/graph.py: WorkGraph.to_frame"]}
{"id": "C123", "title": "A pipeline object that is used more than once", "statement": "Settings of a pipeline (graph, contractors, specification, landscape, time shift, lag option, order optimizers) may be made in any order, and the last one of each counts. Every call of schedule, also after earlier calls of schedule and further settings, does what a new pipeline with the same settings would do, and finish on its result returns one project for every schedule that was made, with the graph and the contractors it was made for, whatever is done with the pipeline in between.", "quantifier": "all sequences of settings and calls of schedule, all graphs, contractors and schedulers, and all moments at which finish is called", "why_tests_cant": "the object remembers what earlier calls did; the property ranges over all histories of calls", "anchors": ["sampo/pipeline/default.py: DefaultInputPipeline, DefaultSchedulePipeline.finish", "sampo/schemas/project.py: ScheduledProject", "sampo/generator/environment/contractor_by_wg.py: get_contractor_by_wg"]}
{"id": "C124", "title": "Costs of scheduled works follow the prices of contractors", "statement": "The cost of every scheduled work is, summed over the kinds of workers in its team, their number times the price (cost_one_unit) which the contractor of the work set for workers of this kind times the duration of the work. Copies of workers which schedulers make keep all of a worker's fields.", "quantifier": "all lists of contractors with different ids and all their workers, prices and productivities, and all schedules with all teams and durations", "why_tests_cant": "tests leave prices at their default; the property ranges over all prices, productivities and teams", "anchors": ["sampo/schemas/resources.py: Worker.copy, Worker.with_count, Worker.get_cost", "sampo/schemas/scheduled_work.py: ScheduledWork.cost", "sampo/scheduler/utils/__init__.py: get_worker_contractor_pool", "sampo/schemas/contractor.py: Contractor"]}
{"id": "C125", "title": "Building work graphs from the same works more than once", "statement": "WorkGraph.from_nodes may be called any number of times: a call with works that were already built into a graph, alone or together with further works, gives a work graph with all the works of the call, all of them reachable from its start and leading to its finish.", "quantifier": "all works and links between them, and all lists of works of a first and a second call", "why_tests_cant": "a call changes the works it is given; the property ranges over all graphs and over what earlier calls left behind", "anchors": ["sampo/schemas/graph.py: WorkGraph.from_nodes, get_start_stage, get_finish_stage, GraphNode.add_parents"]}
{"id": "C126", "title": "The record of deliveries of a work", "statement": "A MaterialDelivery shows for each material exactly the deliveries that were added for it, one by one or as lists, in the order in which they were added, and adding deliveries does not change the lists the caller handed over.", "quantifier": "all sequences of calls of add_delivery and add_deliveries, for all materials and lists of deliveries", "why_tests_cant": "lists are shared between caller and record; the property ranges over all histories of calls", "anchors": ["sampo/schemas/landscape.py: MaterialDelivery.add_delivery, MaterialDelivery.add_deliveries"]}
{"id": "C127", "title": "Platforms of works and holders of nodes in a landscape", "statement": "Platforms of a landscape are exactly the nodes at which no resource holder is. Every work that was placed at a node of the transport network is supplied at this node, and every resource holder can be found by its node.", "quantifier": "all transport networks, all placements of works, all lists of resource holders", "why_tests_cant": "generated landscapes keep works and holders apart; the property ranges over all landscapes", "anchors": ["sampo/schemas/landscape.py: LandscapeConfiguration, ResourceHolder", "sampo/schemas/landscape_graph.py: LandGraphNode.works"]}

# Formal model of SAMPO in Lean 4: design

The repository in `/repo` (aimclub/SAMPO, Python) is modelled as text; nothing of it is executed.
The model lives in `lean/Verif/`.  Layout:

* `Verif/Model/*.lean` – the model: small total functions, each with a comment citing the Python file and lines.
* `Verif/Spec/*.lean`  – short independent specifications (usage at a moment, topological order, ...).
* `Verif/Lemmas/*.lean` – helper lemmas.
* `Verif/Props/*.lean` – property theorems only, each followed by an `example` that meets its hypotheses.

## Conventions of the model

* `Time` is modelled by `Int` with the saturating operations of `schemas/time.py`
  (`Verif/Model/Time.lean`).  Floats (volumes, weights, costs) are modelled by integers or rationals; where
  rounding matters the rounding function is a parameter with the assumed bound written as a hypothesis.
* Python exceptions (`AssertionError`, `IndexError`, `ValueError`, ...) are `none`/`Except.error`.
* Python sets and dicts with unspecified iteration order are lists; theorems quantify over every order.
* Work graph nodes are natural numbers (identifiers); object identity is identifier equality.
* External calls (work estimator, random generator, resource optimizer, material supply) are parameters; theorems
  quantify over all of them.

## Trusted base

* Lean's kernel (4.33.0).
* The axioms `propext`, `Classical.choice` and `Quot.sound`; no others. Which theorem uses which is listed at the end of this file
  (section "Axioms", generated from `#print axioms`). No `sorry`, `native_decide`, `bv_decide` or own axioms are used.
* The reading of the Python code: every definition cites its source lines, and simplifications are stated there.
* The statements: theorems in `Verif/Props` and the specifications in `Verif/Spec` they mention.

### Modelled code

| model file | code in `/repo/sampo` |
|----|----|
| `Time`, `Worker` | `schemas/time.py`, `schemas/resources.py` |
| `JIT`, `Momentum`, `Assigned`, `Sched` | `scheduler/timeline/just_in_time_timeline.py`, `momentum_timeline.py`, `utils.py`; loops of `scheduler/generic.py` and `scheduler/lft/base.py` |
| `Contractor`, `GenericPlan`, `LFTPlan`, `Optimize`, `Deadline` | team and contractor choice of all list schedulers (`scheduler/utils/multi_contractor.py`, `scheduler/base.py`, `scheduler/generic.py`, `scheduler/lft/base.py`), `scheduler/resource/*`, `utilities/base_opt.py`, `scheduler/resources_in_time/average_binary_search.py` |
| `Toposort`, `Heads`, `Priority`, `Prioritize`, `CriticalPath` | `scheduler/utils/__init__.py`, `utilities/priority.py`, `scheduler/{heft,lft}/prioritization.py`, `scheduler/topological/base.py`, `scheduler/utils/critical_path.py`, `schemas/project.py` |
| `Validate`, `Usage`, `Merge` | `utilities/validation.py`, `utilities/resource_usage.py`, `utilities/schedule.py`, `schemas/schedule.py` |
| `GeneticOrder`, `GeneticResources`, `GeneticOffspring`, `GeneticLoop`, `Decode`, `LinkedList`, `Hybrid` | `scheduler/genetic/operators.py`, `schedule_builder.py`, `converter.py`, `utils.py`, `scheduler/timeline/general_timeline.py`, `utilities/linked_list.py`, `hybrid/*` |
| `SwapOrder`, `Pipeline`, `Estimator` | `scheduler/utils/local_optimization.py` (order optimizers), `pipeline/default.py`, `pipeline/lag_optimization.py`, `pipeline/preparation.py`, `schemas/apply_queue.py`, `schemas/time_estimator.py`, `generator/environment/contractor_by_wg.py` |
| `Graph`, `Restructure`, `Edit`, `Cycles` | `schemas/graph.py`, `structurator/*`, `userinput/parser/general_build.py` (cycles) |
| `Zone`, `Landscape`, `Supply` | `scheduler/timeline/zone_timeline.py`, `schemas/landscape.py`, `schemas/landscape_graph.py`, `scheduler/timeline/hybrid_supply_timeline.py`, `platform_timeline.py` |
| `Blocks` | `scheduler/multi_agency/*` |
| `Fitness` | fitness functions of `scheduler/genetic/operators.py` |
| `Table` | `userinput/parser/general_build.py` (from cells to the graph), `csv_parser.py` (`read_graph_info`, `work_graph`), `history.py` (`set_connections_info`), `WorkGraph.to_frame` |
| `History` | `userinput/parser/history.py` (`get_all_seq_statistic` and its helpers) |
| `Synthetic` | `generator/pipeline/cluster.py`, `generator/pipeline/project.py`, counts of `generator/config/gen_counts.py` |
| `Lifetime` | `WorkGraph.__post_init__`, `__del__`, `__getstate__`, `__setstate__`, dill hook of `schemas/graph.py`; CPython destroys an object when its last reference goes |
| `Obstruction` | `scheduler/utils/obstruction.py` |
| `Cache` | `cached_property`/`cache` behaviour of `GraphNode` in `schemas/graph.py` (the other models compute from the links) |
| `Extension` | `generator/pipeline/extension.py`, `SimpleSynthetic.advanced_work_graph` |
| `Materials` | `SimpleSynthetic.set_materials_for_wg` of `generator/base.py` |
| `Interval` | `schemas/interval.py` |
| `SyntheticReqs` | `generator/config/worker_req.py`, requirements in `generator/pipeline/cluster.py`, `get_contractor` of `generator/environment/contractor.py` |
| `StochasticEstimator` | `sampo/schemas/time_estimator.py` (random productivity), `sampo/schemas/interval.py` (`rand_float`) |
| `LandGen` | `sampo/generator/environment/landscape.py` (`get_landscape_by_wg`) |
| `Json` | `sampo/schemas/serializable.py` (`AutoJSONSerializable`), `sampo/utilities/serializers.py` |
| `Records` | fields and custom serializers of `WorkUnit`, `Worker`, `Equipment`, `ZoneTransition`, `ScheduledWork`, `Contractor`, `Schedule` |
| `ScheduleTable` | `sampo/schemas/schedule.py` (`Schedule`), `offset_schedule`, `add_time_delta` |
| `BlockGen` | `sampo/scheduler/multi_agency/block_generator.py` |
| `Auctions` | `StochasticManager.run_auction`, `NeuralManager.run_auction` |
| `Agency` | `Agent.offer`, `Agent.confirm`, `Manager.manage_blocks`, `Manager.run_auction` composed with `schedule_with_cache` on a carried timeline |
| `BlockCheck` | `block_validation.py` |
| `LocalSchedule` | `ParallelizeScheduleLocalOptimizer` |
| `SupplyQuery` | hybrid_supply_timeline.py `_can_deliver_to_time`, `can_schedule_at_the_moment`, `find_min_material_time`; platform_timeline.py `can_schedule_at_the_moment`, `find_min_material_time_with_additional` |
| `StructureEstimate` | `schemas/structure_estimator.py` (`DefaultStructureEstimator`, `DefaultStructureGenerationEstimator`) |
| `Backend` | backend/default.py; backend/multiproc.py; `generate_chromosomes`; weights of `GeneticScheduler.generate_first_population`; `get_recreate_info` |
| `Scheduler` | scheduler/generic.py `schedule_with_cache`, scheduler/lft/base.py `schedule_with_cache`, the four prioritization rules as parameters of it |
| `GeneticRun` | prepare_optimized_data_structures, convert_schedule_to_chromosome, make_offspring, stages of the genetic loop and decoding of the hall of fame, composed from `Heads`, `GeneticOffspring`, `GeneticLoop`, `Decode` |
| `SortedList` | `ExtendedSortedList` of schemas/sorted_list.py |
| `LandNodes` | `LandGraphNode` and `LandGraph` of schemas/landscape_graph.py as objects with a history |
| `AutoPipeline` | `DefaultInputPipeline.schedule` with automatic lag optimization, from the project to the schedule: restructured graph as a `WorkGraph`, requirements and specifications of stages, default LFT and HEFT schedulers |
| `ZoneSite` | zone search and bookkeeping in just_in_time_timeline.py:63, 100-101, 319-322, momentum_timeline.py:128, 152-153, 452-454, end of generic.py and lft/base.py build_scheduler |
| `MatSite` | material search and deliveries in just_in_time_timeline.py:59-61, 93-98, 304-315, momentum_timeline.py:126-131, 145-150, 436-447 |
| `ToStart` | scheduler/timeline/to_start_supply_timeline.py |
| `DecodeSite` | just_in_time_timeline.py: the questions of `can_schedule_at_the_moment` to supply and zones |
| `ZoneGenes` | operators.py: `mate_for_zones`, `mutate_for_zones`; converter.py: zone processing of the serial scheme |
| `Preparation` | `pipeline/preparation.py`, `work_graph_and_contractors` of `csv_parser.py`; files and data frames alike; separators, name mapper and work estimator are part of how cells are read |
| `DeadlineRun` | average_binary_search.py with HEFT, topological and LFT schedulers as base |
| `ScheduleSpec` | `WorkSpec`, `ScheduleSpec` (schedule_spec.py), `build_scheduler` of generic.py and lft/base.py with a specification |
| `LFTAssign` | `get_chain_duration` (lft/time_computaion.py), `_contractor_workers_assignment`, `_get_contractor_index`, `schedule_with_cache` (lft/base.py) |
| `OrderPipeline` | `ApplyQueue.apply` (schemas/apply_queue.py) on orders, `LocalOptimizedScheduler` and `optimize_local` (pipeline/default.py), `DelegatingScheduler` (pipeline/delegating.py) |
| `PlainPipeline` | `DefaultInputPipeline.schedule` (pipeline/default.py:192-300) without the automatic lag choice, over `Pipeline`, `Priority`, `OrderPipeline`, `LFTAssign` |
| `PriorityQueue` | `PriorityQueue` (utilities/priority_queue.py) |
| `SearchFloat` | `dichotomy_float` (utilities/base_opt.py:13-23) |
| `Checked` | validation at the end of `schedule_with_cache` (generic.py:123-129, lft/base.py:133-140, genetic/base.py:311-313) |
| `GeneticFull` | `GeneticScheduler.generate_first_population` and `schedule_with_cache` (genetic/base.py:171-214, 254-316), `init_chromosomes_f` (genetic/utils.py:15-33), `generate_chromosomes` (operators.py:262-332) over the modelled schedulers |
| `GeneticSerial` | `GeneticScheduler.schedule_with_cache` (genetic/base.py:254-316) with `ScheduleGenerationScheme.Serial` (converter.py:86-124, 240-316), without zones |
| `Collections` | `sampo/utilities/collections_util.py` (whole file); iterables are finite and not changed while read |
| `GeneticPipeline` | `DefaultInputPipeline.schedule` (pipeline/default.py:192-300) with `GeneticScheduler` |
| `Finished` | `DefaultSchedulePipeline.__init__`, `finish` without optimizers, `from_scheduled_works(node2swork.values(), wg)` |
| `Build` | `WorkGraph.from_nodes` with the traversal of `reinit`, as a project for the pipeline |
| `Features` | `scheduler/selection/metrics.py` |
| `NameMapper` | `utilities/name_mapper.py` except reading of files and `ModelNameMapper`, which raises |
| `Sampler` | `utilities/sampler`: `get_worker_req`, `get_worker_reqs_list`, `get_work_unit`, `get_similar_work_unit`; floats as rationals |
| `TableReqs` | columns with requirements in `preprocess_graph_df`, `build_work_graph`, `CSVParser.work_graph` and `to_frame`; `literal_eval` is a parameter |
| `TableFields` | volumes, statuses, descriptions, groups and priorities in `preprocess_graph_df` and `build_work_graph`; `float` and `eval` on texts are parameters |
| `Session` | settings, `schedule` and `finish` of `DefaultInputPipeline` and `DefaultSchedulePipeline` as steps on one object; ready work graphs, without optimizers of schedules |
| `Costs` | `Worker.__init__`, `copy`, `with_count`, `get_cost`, `Contractor.__post_init__`, `get_worker_contractor_pool`, cost of `ScheduledWork`; which counts a team has is a parameter |
| `Deliveries` | `MaterialDelivery` with lists as objects |
| `LandTables` | `LandscapeConfiguration.platforms` and the tables `__init__` makes of works and holders; routes are in `Landscape` |
<!-- more models -->

### Not modelled

* `native/*` (C++), `scheduler/native_wrapper.py`, worker processes of `backend/multiproc.py`;
* numpy, pandas, DEAP and networkx themselves: what the code relies on is stated in the comment of the definition that calls them
  (stable sort, `argmin`, `selBest`, breadth-first traversal, ...);
* the characters of JSON text (`json.dumps` and `json.loads` are one map of values), arrays and tables as fields of saved objects, files, logging, plotting (`utilities/visualization/*`);
* neural networks (`scheduler/selection/neural_net.py`, `validation.py`).

## Plan per property

| id | modelled | proof |
|----|----------|-------|
| C01 | `Time` constructor and operators as clamped integer operations | arithmetic |
| C02 | release list update of the just-in-time timeline | induction on the list and on the operation sequence |
| C03 | update + start search, history of allocations | invariant: busy workers at t ≤ workers released after t |
| C04 | `_find_min_start_time` incl. negative index wrap-around | refinement to "released by t ≥ needed"; over-demand counterexample |
| C05 | independent branch of both timelines | invariant for just-in-time; counterexample for momentum |
| C06 | event list, `update_timeline`, `_validate` | refinement: available(t) = capacity − usage(t) |
| C07 | `_find_earliest_time_slot`, `_find_min_start_time` | loop invariant |
| C08 | same | loop invariant + termination measure |
| C09 | `find_min_start_time_with_additional`, chain placement | arithmetic over the chain; counterexample with an assigned duration |
| C10 | `build_scheduler`, head nodes | induction over the order |
| C11 | `build_scheduler` over both timelines | invariant over the order |
| C12 | chain placement of both timelines | induction over the chain |
| C13 | `get_exec_times_from_assigned_time_for_chain` | induction; float rounding is a parameter |
| C14 | `run_contractor_search` | fold invariant |
| C15 | `get_worker_borders` | induction |
| C16 | `optimize_resources_using_spec`, LFT amounts | case analysis; counterexample for over-capacity specs |
| C17 | all checks of `validate_schedule` | fold invariant; counterexample: last moment is never checked |
| C18 | `order_nodes_by_start_time` | loop invariant |
| C19 | `toposort` | loop invariant, progress argument |
| C20 | three prioritizations | sortedness arguments, Bellman–Ford convergence |
| C21 | `check_and_correct_priorities` | invariant over processed edges |
| C22 | head node mapping | set reasoning |
| C23 | swap optimizer | counterexample for forward orders; invariant for reversed orders |
| C24 | order crossover | list reasoning for an arbitrary precedence relation |
| C25 | order mutation | list reasoning, index tracking invariant |
| C26 | resource crossover/mutation | pointwise bounds |
| C27 | chromosome checks | equivalence |
| C28 | both schedule generation schemes | invariants over the loop |
| C29 | dichotomy, coordinate descent, full scan, average | loop invariants |
| C30 | binary search over resource level | loop invariant |
| C31 | (de)serialization of graphs | round trip |
| C32 | `from_nodes` | set reasoning |
| C33 | `traverse_children` | loop invariant and measure |
| C34 | stage splitting, restructuring | telescoping sums |
| C35 | copy, deletion | reachability |
| C36 | block graph | DFS invariant; counterexample for copy |
| C37 | manager | fold invariants |
| C38 | cycle elimination | DFS invariant, edge count measure |
| C39 | landscape routes | shortest path invariants |
| C40 | zone timeline | counterexample + partial |
| C41 | material supply | invariants, counterexamples |
| C42 | resource usage | sweep invariant |
| C43 | linked list | heap model |
| C44 | pipeline lag option | case analysis; counterexample |
| C45 | contractor feasibility | equivalence |
| C46 | default estimator | rational arithmetic |
| C47 | contractor generation | max over list |
| C48 | stage merging | fold |
| C49 | both timelines, demands above the pool | exact rejection condition; counterexample for just-in-time |
| C50 | independent works on a momentum timeline | invariant; counterexample for works placed later |
| C51 | complete runs on both timelines | invariant: booked intervals within capacity |
| C52 | `Schedule.execution_time` | maximum over rows |
| C53 | team choice of the generic scheduler on both timelines | search reports compared with the placement made; counterexample for just-in-time |
| C54 | complete runs of LFT, HEFT and topological schedulers | progress: each step succeeds; horizon invariant for the searches |
| C55 | crossover and mutation of whole chromosomes | composition of C24–C27, population invariant |
| C56 | main loop of the genetic scheduler | fold invariant over generations |
| C57 | two-phase search with a deadline | fold invariant |
| C58 | first population | list arithmetic |
| C59 | `insert_wu`, `graph_insertion` | set reasoning on edges |
| C60 | downtimes of agents in auctions | fold invariant; counterexample |
| C61 | queue of local optimizers | fold; counterexample for two schedule optimizers |
| C62 | critical path | longest path by dynamic programming over a topological order; counterexample |
| C63 | hybrid scheduler | loop invariant, termination by finite plateau |
| C64 | fitness functions | rational arithmetic; counterexamples |
| C65 | cells as texts, reading of cells, modes of `set_connections_info`, loops, sorting as any topological order, building of nodes | rows stay aligned through every step (filter on lists of links); C38 for loops, C32 for the graph; cells by `splitOn`/`intercalate` |
| C66 | the same with links of history as a parameter | the lists after each mode as own links and new links; a closed walk of largest weights has only links of the table |
| C67 | `WorkGraph.to_frame` (columns of links) followed by table reading | the table of a project is a written table in the sense of C65, without cycles; then C65 |
| C68 | statistics of history: pairs of dates per site, counts, shares, minimum without outliers | counts as sums over pairs; the mean is not above the maximum, so the filtered list is not empty; sorting of permuted rows is unique; grouping by site is a permutation |
| C69 | `get_cluster_works`, `get_small_graph`, `get_graph` with the random numbers as parameters; nodes numbered in the order of creation | works per cluster by counting; invariant of the loop (every node is linked, edges go upwards) and a measure for its end; `from_nodes` by C32 |
| C70 | node objects with links that may be missing; graph objects; destructor, `__setstate__`, dill hook | refinement: round trip of C31, then the destructor as an update of the store |
| C71 | `OneInsertObstruction.apply` on the store of C70; random choices as parameters | acyclicity by a block number that grows along links; non-termination from C33 (predecessors first against a loop) |
| C72 | `cached_property` values per node object, one table of chains keyed by work id, `add_parents` with its invalidation, reads | refinement: coherence invariant over all operation sequences; answers specified from the links alone and shown unique |
| C73 | kinds and names as lists of characters, suffixes numbered as the code numbers them, random choices as an oracle | suffix numbering is injective; counting of kinds through the map from new to old kinds |
| C74 | settings, random draws as an oracle, set of names in an unknown order | elementwise over the works |
| C75 | borders rational or infinite, random numbers as parameters, rounding of CPython | order arithmetic |
| C76 | all requirement constants, scaling, contractor counts with random numbers as parameters | the constants by kernel evaluation, scaling by monotonicity for all lengths |
| C77 | productivity intervals as borders and a random number per draw, the estimator's loop | induction over the requirements; the productivity is between its borders, the time is antitone in it |
| C78 | the generator's loops over platforms and holders, the dealing of chains, maxima of needs | invariants of the two loops give a road from every node towards the last platform; counting for the dealing; maxima bound needs |
| C79 | Python values, `_serialize`/`_deserialize` over the fields with type hints and custom serializers, JSON text as a partial map of values | structural induction over values and lists; code of each class computed |
| C80 | table as column names and rows, padding and refusal of records by pandas, sort by place in the order of C18 | sortedness and uniqueness of sorted permutations; C18; merging commutes with moving of times |
| C81 | kinds of graphs, edges inside and around blocks with random draws as parameters, queues as lists of sizes | induction on blocks and queues; ranks for acyclicity |
| C82 | both auctions over the agents and offers of C37; confidence as a number of steps, float scaling and distances as parameters | C37's choice lemma on weighted offers; a rank of agents |
| C83 | agents whose offers are made by the list schedulers of `Sched` on the timeline kept from earlier blocks; any way to pick the agent | invariant over blocks: each kept timeline tracks everything its agent has done (`Holds`); the just-in-time queue and the interval timeline invariants of C09/C10 extended to a timeline that is not empty at the start |
| C84 | `validate_block_schedule` with the validator of C17 for each block, and the check that is commented out | acceptance unfolded; disjoint blocks by induction over the blocks of an agent; concrete witnesses for the rest |
| C85 | the loop of `ParallelizeScheduleLocalOptimizer` and `recalc_schedule` for any timeline, with the two timelines of `Sched` as instances | induction over the order: the old entry of every work of the order is stored last; acceptance of candidates as in C23; the demo project as witness |
| C86 | the questions to the supply timeline (`canSchedule`, `findMin`) beside `deliver` | the inner loops for two deadlines are run side by side (`Together`): a trip that arrives at `u` for a deadline before `u` arrives at `u` for the deadline `u`; lists of platforms are sorted after every history |
| C87 | `DefaultStructureEstimator.restruct` and the default generator; random generators, probabilities, volumes and ids are parameters | the result is the list of old links followed by two links for every generated work; then filters of that list; cycles: what comes to a work other than the finish comes along old links; probabilities by induction over works and entries |
| C88 | both backends as state machines: remembered task and settings, toolbox, pool; first populations of both | invariant: toolbox and pool belong to the last task and settings; induction over sequences of calls, in both directions; counting of the urn; witnesses for the differences |
| C89 | `orderWorks`, `scheduleJIT`, `scheduleMomentum`: collapse, one of four prioritizations, build; `Feasible` (own spec) says what a valid schedule of a graph is | composition: C22 (heads, tables) feeds C20 (orders); expanding chains of a good order gives a topological order of all works (`Lemmas/Expand`); then C10, C11, C12, C51 for validity and C54 with a bound on the horizon for existence |
| C90 | the prioritizations of C20 and the first two steps of `schedule_with_cache` (C89) | groups of equal priority are concatenated in ascending order; for randomized LFT: for every unselected work there is an eligible one of at most its priority number (induction over the topological order), so the selected one is minimal among all unselected |
| C91 | prepare_optimized_data_structures, convert_schedule_to_chromosome on top of the collapse of C22 and the schedules of C89 (kinds and contractors are numbered by position) | tables: collapse_tables of C22 through the numbering; conversion: invariant of the loop over the works (rows written are those of the schedule); acceptance from C55.valid_is_accepted; witness with contractors that list kinds in different orders |
| C92 | first chromosomes of C91, make_offspring (operators of C55), loop and hall of fame (C56, C57), decoding of members by the parallel scheme (C28) on the work graph | invariant of both stages: all chromosomes of population and hall of fame are valid, borders between zero and capacity; decoding: theorems of C28 with hypotheses derived from validity, collapse (C22) and chain expansion (C89); teams by an invariant of the loop of the parallel scheme |
| C93 | `merge` and assignment of the extended sorted list on sublists, keys and greatest keys; the splitting of sublists by the library is any function that keeps the items | one step either merges one item of the key or inserts between smaller and greater ones; induction over the values for the dictionary |
| C94 | nodes as objects with remembered values, roads laid in both lists, building of the matrix and the dictionaries with their exceptions | invariant: the roads of a node are those laid in the history, seen from it; the matrix by induction over rows and roads |
| C95 | the pipeline with `AUTO`: first correction of priorities, check of contractors, restructuring with both options, the traversal of the new graph, second correction, LFT on a momentum timeline or HEFT on a just-in-time timeline, choice of the shorter schedule | every new edge joins two stages of a work or is made for a given edge; so the new graph is a work graph whose chains follow the topological order of the works; C21, C33, C34, C89 and C45 are composed, and a valid schedule of the stages is read as a schedule of the works |
| C96 | The schedulers of C89 on the site of C40: `site base cfg reqs` puts the zone timeline into the environment of `Model/Sched.lean`, materials stay arbitrary | Invariant `Held`: the zone history has one row per placed chain, with the chain's start and a finish not before its last work; a found start is granted by the zones, granted rows of incompatible requirements are apart (C40); the search ends because zones are free after the last event of their timelines |
| C97 | The schedulers of C89 on a site with the supply timeline of C41 (and the zones of C96): `MatSite.site base land needs` puts `find_min_material_time` and `deliver_resources` into the environment of `Model/Sched.lean` and logs the deliveries | Invariant `Kept`: the log is a history of C41 with one call per placed work, whose time is the start of the work; then the theorems of C41. Platforms: invariant `Asked` (requests come after the predecessors), so works that depend on each other are asked for in order |
| C98 | `Model/ToStart.lean`: the depot search of `ToStartSupplyTimeline`; bookings, roads and platforms are those of `Model/Supply.lean` | The invariant of C41 holds for the histories of this timeline too; the preference of nearer depots by induction over the offers of the last round of the search |
| C99 | the decoder of C28 inside the scheduler of C92, with the zone timeline of C40 and the supply timeline of C41 answering its questions and booking its placements | invariant of the passes of the parallel scheme: uses of zones cover the works, deliveries correspond to works one to one; then C40, C41 and the hall of fame of C92; two counterexamples |
| C100 | the zone part of chromosomes as a matrix; crossover and mutation with drawn positions, masks and values; the processing of zones after each work of the serial scheme, with the value `schedule` gives back | induction over rows and over generations; the first work of the serial scheme raises for every landscape with a zone |
| C101 | the constructor and the setters of the pipeline as a fold over calls; `_prepare_works_info`, `build_wg`, `build_wg_and_contractors`, `work_graph_and_contractors` over the reading of tables of C65-C67 | induction over the calls; composition with C65 (`acyclic_table_to_graph`), C66, C67 (`frame_not_made`), C87 and C47; induction over rows and columns of the file of contractors; concrete files for the negations |
| C102 | `find_min_start_time_with_additional` of the momentum timeline and `can_schedule_at_the_moment` of the just-in-time timeline on the sites of C97 and C99; `Supply.Prompt` | the search ends only where `find_min_material_time` does not put it off; C86 turns the answer into the time of the delivery; induction over the order of works and over the main loop of the decoder; witnesses for followers and the just-in-time search |
| C103 | the complete list schedulers on both timelines (`Model/Scheduler`); `Spec/Exclusive` | invariant of the just-in-time timeline: an independent chain takes the whole supply of its worker types, so every row entry released before it is finished before its start and every later entry starts after its finish (`Lemmas/Exclusive`); induction over the order of works; witness for the momentum timeline |
| C104 | `Model/DeadlineRun`: the search of C30 with the complete list schedulers of C89 as `call_scheduler`; `Spec/Deadline` | the average requirement is an acceptable optimizer at every level from 1 on, and the search uses no other (`Lemmas/Deadline`); C89 and C103 for each run, C30 for the deadline; witness with six works and 25 workers |
| C105 | `ScheduleSpec` as a default dictionary with its setters, and the plans of LFT and the generic schedulers with specifications: terms of the chain head choose contractor and team, its assigned time is split over the chain | durations of placed works are read off the loop that places a chain and summed with C13; teams and contractors come from C16; validity from C89, exclusiveness from C103; a fold invariant gives the meaning of the calls; witnesses for what is not kept |
| C106 | the loop that gives each chain a contractor: durations, counters, scores (rationals), first maximum; the whole LFT scheduler with this choice on both timelines | invariant that the counters are one more than the numbers of chains given so far; comparing scores with a common denominator gives the choice and the balance; C16 for teams, C54 and C89 for the schedule; induction on n for the witness |
| C107 | the queue of order optimizers, the delegating scheduler of the pipeline, the swap optimizer (C23) in front of the complete schedulers (C89) | a good order starts with the start and ends with the finish, so C23's loop finds no candidates inside it unless the area is everything; then an invariant of the loop brings the finish to the front, and the first placement of the momentum timeline starts at the project start |
| C108 | the whole of `DefaultInputPipeline.schedule` for a ready graph with lag optimization on or off: correction of priorities (C21), contractors (C47), check (C45), graph choice (C44), HEFT behind order optimizers (C107) or LFT with its own contractors (C106) | composition: corrected priorities agree with the order of chain heads, so the rules give good orders; the check gives the premise of the team choice; the schedulers then answer with valid schedules |
| C109 | `PriorityQueue` over the sorted list of `sortedcontainers`, given by its contract | invariant over histories: the items are sorted, and for each sorting key they are the waiting values with that key in the order in which they came |
| C110 | `dichotomy_float`, in rational numbers (rounding of floats is not modelled) | the interval shrinks to half its length plus a tenth of the tolerance in every round, so `n` rounds suffice for `2 ^ n` half tolerances; the minimum stays inside |
| C111 | the end of `schedule_with_cache` with `validate=True`, over the validator of C17 and the schedulers of C89 | completeness of the validator (C17) for the schedules of C89; service works take no time because their estimates are 0 (induction over the run) |
| C112 | `generate_first_population`, `init_chromosomes_f`, `generate_chromosomes` and `build_schedules` put together over the schedulers of C89 and C103, the validator of C111, the conversion and the decoder of C92 and the loop of C56 | completeness of each list scheduler on the project (C89, C106), hence validation passes (C111) and conversion succeeds (C92); all individuals of the population are valid chromosomes; the hall of fame consists of valid chromosomes (C92), which the decoder completes (C92) |
| C113 | the run of C112 with `serial_schedule_generation_scheme` (momentum timeline) as decoder, validation at the end as an option | every team built from a valid chromosome meets the requirements and fits the borders, so each step of the momentum timeline succeeds and moves the horizon by at most one lag and one duration per work; validity of the result by C28, validation by C111 |
| C114 | `flatten` on nested lists as a mutual recursion, dictionaries as lists of entries in insertion order, `build_index`, `reverse_dictionary`, `first` | places of values as lists of positions, compared lexicographically; induction over the nesting and over the items |
| C115 | the pipeline of C108 with the whole genetic scheduler of C112 and C113 as scheduler | priority correction makes priorities agree with the dependencies of chains (C21), which is all that the provisions of C112 say about priorities; the acceptance check answers yes (C45); then C112 or C113 |
| C116 | the way from placed works over `from_scheduled_works`, the dictionary of works and `finish` to the tables (`Finished`) | the ordering theorem of C80 applied twice; a dictionary built from rows with different identifiers keeps their order; the last row is the finish because no row is above one it depends on; valid schedules from C108 and C115 |
| C117 | `from_nodes` with the list of works of the finished graph (`Build`) in front of the plain pipeline | the exact edges of C32 and the traversal of C33 show that the built project meets the provisions of C108, C115 and C116, the new start being the only head that depends on nothing: new edges are finish-start edges, so chains stay as they were |
| C118 | the functions of `selection/metrics.py` with rationals, sets as lists in an order given by an oracle (`Features`) | the position in a topological order grows along dependencies, so the levels end; a work replaced in a level is a child of a kept one and so in the next level; the parts of the rounds by induction over their number |
| C119 | dictionaries of names as association lists built row by row (`NameMapper`) | the last row for a key wins (C114); searching the reversed list of rows |
| C120 | the sampler with the random draws as parameters (`Sampler`) | induction on the list of types; rounding differs by at most one half |
| C121 | the three columns with requirements, cells as dictionaries, texts or numbers (`TableReqs`) | the loop over the names of resources is a filter; a failing element makes a loop fail; requirements with different kinds are found again by kind |
| C122 | the other columns of a table, cells as texts, dictionaries, numbers or `nan` (`TableFields`) | the fields of a row are characterised in both directions, and the table row by row |
| C123 | the pipeline as an object with settings (`Session`), steps are settings and calls of `schedule` | induction over the history: a field is what was set last; the contractors as long as they are a list |
| C124 | workers with prices, their copies, the pool of all contractors and the teams made from it (`Costs`) | the pool holds copies of what contractors offer, by induction over contractors and their workers; sums |
| C125 | two calls of `from_nodes` on one graph of works (model of C32) | the exact edges of C32: after a call every work has a predecessor and a successor, so that the second call links none of them |
| C126 | lists as objects in a memory, the record as references to them (`Deliveries`) | invariant: references of materials differ, lists still to come are not referred to |
| C127 | `platforms`, `works2platform`, `holder_node_id2resource_holder` as dictionaries made from lists (`LandTables`) | the value set last for a key is one of the values set for it |
<!-- more rows -->

## Results

The table is generated by `tools/design.py` from `MANIFEST.json`.  Theorems whose docstring begins "Not proved because false" are
concrete witnesses that the code violates the property; the partial theorems beside them cover the rest.  Every such disagreement
was found by trying to prove the property.

<!-- results -->
| id | property | status | theorems | what is missing or false of the code |
|----|----|----|----|----|
| C01 | Time arithmetic saturates and never leaves its range | proved | 9 |  |
| C02 | Just-in-time timeline keeps every worker | proved | 3 |  |
| C03 | Just-in-time timeline never over-allocates workers | proved | 2 |  |
| C04 | Just-in-time start time is exactly when enough workers are free | proved | 2 |  |
| C05 | Independent works get their worker types exclusively (just-in-time) | proved | 1 |  |
| C06 | Momentum timeline bookkeeping equals capacity minus usage | proved | 4 |  |
| C07 | Momentum timeline start slot is feasible | proved | 1 |  |
| C08 | Momentum timeline start slot is the earliest | proved | 2 |  |
| C09 | Works placed on a momentum timeline start after their predecessors | partial | 3 | False with an assigned duration (assigned_duration_ignores_predecessors); proved in all other cases, with and without an assigned start. |
| C10 | Every work is scheduled exactly once | proved | 3 |  |
| C11 | Schedules respect precedence and lags | partial | 6 | Full for the just-in-time timeline. For the momentum timeline proved without assigned durations and with non-positive lags inside chains; both excluded cases are refuted by concrete schedules. |
| C12 | Inseparable chains are executed in order by one team | proved | 2 |  |
| C13 | An assigned duration is fully distributed over a chain | proved | 6 |  |
| C14 | Contractor search returns the best admissible contractor | proved | 3 |  |
| C15 | Worker borders respect requirements and the pool | proved | 3 |  |
| C16 | Teams in schedules satisfy requirements, pool and specification | partial | 12 | Full for LFT and randomized LFT and for list schedulers without fixed counts. With all counts fixed they are used exactly but are not bounded by requirement or pool (fixed_counts_ignore_limits) unless the timeline rejects over-demand; specifications fixing only some counts raise (partly_fixed_fails) or are overwritten (fixed_count_overwritten). |
| C17 | The schedule validator accepts only executable schedules | partial | 5 | All parts are proved for teams of one contractor. That a team has workers of every required kind is not checked by the code (missing_kind_accepted), and teams of several contractors are charged to the contractor of their first worker (mixed_team_accepted). |
| C18 | Schedule rows are ordered by start time and topologically | proved | 2 |  |
| C19 | Topological sort is complete and detects cycles | proved | 4 |  |
| C20 | Work prioritizations are topological orders | partial | 7 | Randomized LFT: full. HEFT, LFT and topological prioritization: proved if priorities of chain heads agree with dependencies between chains; false otherwise even if priorities of works agree (chain_priority_breaks_order: a chain has the priority of its first work). |
| C21 | Priority correction makes priorities consistent and is minimal | proved | 2 |  |
| C22 | Collapsing inseparable chains preserves dependencies | proved | 6 |  |
| C23 | Local order shuffling keeps topological order | partial | 4 | Proved for reversed start orders and for works strictly inside a forward order. False for forward orders, which the pipeline passes (forward_start_and_finish_swapped), and for works inside inseparable chains (chains_are_missed). |
| C24 | Order crossover keeps valid orders valid | proved | 6 | For orders sorted by priority, as all generated orders are; other orders make mating raise (unsorted_orders_fail). With a single priority no crossover takes place (one_priority_no_crossover). |
| C25 | Order mutation keeps valid orders valid | proved | 3 | The last priority group is never mutated, so with a single priority nothing happens (one_priority_no_mutation). |
| C26 | Resource crossover and mutation stay inside the borders | partial | 4 | Proved when resources are optimized or both parents have the same borders, which is an invariant of the genetic loop (C55.borders_kept); false otherwise (different_borders_can_break). |
| C27 | The chromosome check is exact | partial | 5 | Both checks are proved exact. That borders are the contractor's capacities is proved when every contractor lists all kinds in pool order; false otherwise (borders_mixed_up). |
| C28 | Genetic decoding yields feasible schedules | partial | 14 | Serial and parallel schemes are modelled on top of the momentum timeline model. Proved without further conditions: every decoded schedule has each work exactly once (parallel: when the run ends with nothing waiting), works of a chain are done back to back by one team, finish is not before start; the serial scheme never exceeds capacity. The parallel scheme respects precedence when no work is flagged independent, stays within capacity when worker counts are not overridden by a specification, and always finishes when no duration reaches infinity. Counterexamples show that each of these three conditions is needed: an independent work overtakes its predecessors, overridden counts exceed a contractor's capacity, an infinite duration leaves works out silently. Serial precedence additionally inherits the limits of C11 (assigned durations, positive lags inside a chain). |
| C29 | Resource optimizers stay within borders | partial | 8 | Borders proved for all optimizers and finish time functions. That full scan returns a minimizer is false (optimum_can_be_missed); dichotomy is proved to end at most one step from the minimum of a strictly unimodal function. A partly fixed team of two or more types makes every optimizer raise (partly_fixed_team_fails). |
| C30 | Deadline search returns a schedule meeting the deadline | partial | 8 | Proved for every probed level except the minimum-resources level finishing exactly at the deadline (exact_minimum_lost); with monotone execution times every deadline reachable at a level between 1.05 and 10000 is met; level 1 is never tried (all_resources_never_tried) and the user's specification is dropped (specification_is_dropped). |
| C31 | Work graph serialization round trip | partial | 3 | Works, edges with lags and types, start and finish are proved to survive; that the works come back in the same order is false (order_can_change). The contents of work units are opaque. |
| C32 | Building a work graph gives one source and one sink | proved | 4 |  |
| C33 | Graph traversal visits each work once, predecessors first | proved | 3 |  |
| C34 | Restructuring conserves work | proved | 14 | Conservation, the chain of stages and the edge types hold for every run that returns a graph. That the run returns one, and that every edge is realized between the right stages, is proved for well-formed graphs (with lag optimization: no competing edges between the same two works; competing_edges_fail shows the KeyError otherwise). names_of_split_work_change records that the names of split works change in the given graph. Traversal of the new graph from its start is not modelled. |
| C35 | Graph editing keeps the rest of the graph | partial | 8 | Copying is proved (priority, description and display name are lost: copy_loses_priority). Deletion keeps the rest for works with finish-start edges only; the last work of a deleted chain stays (chain_not_deleted) and works with start-start or finish-finish edges are not deleted (work_not_deleted). |
| C36 | Block graph copy and order | partial | 5 | The processing order and the whole work graph are proved right for all acyclic block graphs. Copying a block graph is false: it reverses all dependencies (copy_reversed, copy_not_equal); to_work_graph reads the copy in the reversed direction as well, so its result is right. |
| C37 | Block auctions respect block dependencies | proved | 9 |  |
| C38 | Input cycle elimination yields an acyclic graph | proved | 8 |  |
| C39 | Routes are shortest paths | partial | 8 | Constructed routes: proved for networks in which two nodes are joined by at most one road; false otherwise (unavailable_road_in_route). Tables: proved for such networks without roads of length zero; false otherwise (distance_of_last_road, no_way_through_zero); reading a route from the tables does not end if there is none (table_route_endless). Weights are natural numbers (no rounding). |
| C40 | A zone has one status at a time | partial | 6 | Proved without costs of status changes, for all histories of placements: works needing different statuses of a zone never overlap, and every search ends with a time that can be occupied; recorded changes end at the start of the work and take their cost. With costs the property is false (statuses_overlap, change_too_short), and final statuses make scheduling raise (final_statuses_fail). |
| C41 | Material stock is never overdrawn | partial | 13 | Proved for every sequence of deliveries: stocks of depots are never exceeded, roads are never booked beyond their bandwidth, deliveries arrive not before the deadline and from a depot of the landscape, and a well equipped depot that has the material delivers it. trip_as_booked_partial: enough vehicles, roads booked during the trip. needs_covered_partial: platform storage covers the needs when works come in order and deliveries are all or nothing. The rest of the full claim is false of the code, with witnesses: vehicles of a depot are used twice (fleet_exceeded), carry more than they can (vehicles_overloaded), roads are booked at a time other than that of the trip (roads_booked_earlier), and the storage of a platform is overdrawn (storage_overdrawn_large, _part, _order). |
| C42 | Resource usage reports are exact | partial | 7 | Rows, columns, usage over time, peaks, sum of peaks and cost are exact for every schedule. The reported total per worker type (resources_sum) is not computed for any schedule with a worker: it reads an attribute workers do not have and raises (total_fails). |
| C43 | Linked list removal and append | partial | 6 | Made lists, any number of removals with stateful conditions, lengths: proved. Histories of appends and removals are right as long as a removal keeps the last element or nothing (operations_partial). An element appended after the last one was removed is lost (append_lost); iterating leaves out the last element of every list (iteration_incomplete) and raises on the empty list (empty_iteration_fails). |
| C44 | Lag optimization option of the pipeline | partial | 6 | Switched off (off_original) and automatic choice (auto_smaller, auto_succeeds, pipeline_done) are proved for every project. Switched on is false of the code: the pattern `case TRUE, FALSE` matches pairs only, so switched on behaves as switched off (on_ignored, on_not_restructured). |
| C45 | Contractor feasibility check of the pipeline is exact | partial | 5 | Every answer the check gives is right (answer_exact, accepted_teams, refused_no_team). It answers if all contractors have an entry for every required type (accepted_iff_partial); otherwise it may raise although a contractor can do each work (check_fails). |
| C46 | Default work time estimate | proved | 10 |  |
| C47 | Generated contractor can execute the graph | proved | 5 |  |
| C48 | Merging split stages restores whole works | partial | 14 | For ids in which the separator occurs only before stage numbers: one row per work, volume, start, finish, order by start, execution time, unsplit schedules (united_partial, spans_stages, execution_time_kept, unsplit_unchanged, table_partial). The id is kept if the last stage has the greatest number or if numbers are equal and the sort keeps their order (id_kept, id_kept_same). False of the code, with witnesses: cost is that of one stage (cost_lost), the id depends on the sort because restructuring gives all stages the same name (id_may_change), durations in the table are one too long for merged works (table_duration), ids containing the separator are merged or counted twice (ids_merged, ids_counted_twice). |
| C49 | Requests above the pool are rejected | partial | 3 | False for the just-in-time timeline (jit_accepts_over_demand: demands up to twice the pool pass because negative list indices wrap around); proved for the momentum timeline; exact rejection condition proved for just-in-time. |
| C50 | Independent works get their worker types exclusively (momentum) | partial | 2 | False for works placed later (later_work_overlaps_independent); proved for works placed before the independent one. |
| C51 | Complete schedules never exceed contractor capacities | proved | 2 |  |
| C52 | Execution time is the latest finish | proved | 2 |  |
| C53 | The chosen contractor finishes the work first | partial | 5 | Proved on the momentum timeline. False on the just-in-time timeline (jit_picks_later_finish): its search adds the finish of the predecessors to the duration of the work (just_in_time_timeline.py:74-87, 107-109), so a contractor whose workers are free early is preferred over one that would finish earlier. Proved there for works whose team does not get free before the predecessors are done. |
| C54 | A project that can be staffed gets a schedule | proved | 11 |  |
| C55 | Offspring of valid chromosomes are valid and accepted | proved | 5 |  |
| C56 | The genetic scheduler returns the best it has seen | proved | 3 |  |
| C57 | A deadline that was reached is kept | proved | 3 |  |
| C58 | The first population has the requested size and all initial schedules | proved | 4 |  |
| C59 | Inserting a work or a graph keeps everything else | partial | 8 | Proved for neighbours given with lag and type and for graphs whose start is not linked to their finish. Plain neighbours get lag -1 and may overlap (plain_neighbours_overlap); empty neighbour lists and a direct start-finish link raise (no_neighbours_fails, direct_link_fails); numbering from 0 gives a random first id (first_id_random). |
| C60 | Reported downtime of agents | partial | 3 | Proved for agents that win all auctions (within the finite time range). False for agents that lose auctions: the same idle time is counted at every lost auction (downtime_counted_twice). |
| C61 | Local optimizers of a pipeline are applied one after another | partial | 4 | Order optimizers, no optimizer, and one schedule optimizer are proved. With two or more schedule optimizers the code raises whenever there is a schedule, because the second is called without the node order (second_fails). |
| C62 | The critical path is a path of the project and nothing in the project takes longer | partial | 7 | Proved: the search ends and returns a path; no path of the project is better in time plus number of chains, so none of at least as many chains takes longer and none exceeds the result by more than its number of chains (critical_partial, nearly_longest); the user gets the last work of every chain of the path (reported), the path itself without inseparable works (reported_unchanged). False in general: PRIORITY_DELTA is added to every weight, so a path of many short works can be returned although another takes longer (not_longest); of a chain of inseparable works only the last is reported (chain_omitted). |
| C63 | The hybrid scheduler ends and returns the best schedule it has seen | partial | 10 | Proved for one objective and cycles of schedulers that keep the best (genetic schedulers without deadline do: genetic_keeps): the run ends (ends_partial) and nothing seen is better (best_seen_partial, improves_heuristics); for every cycle the result is the best of the last population after a plateau of the given size (result). False in general: a heuristic scheduler in the cycle discards what was found (heuristic_forgets), swinging fitness or a plateau of 0 never ends (swings_forever, no_plateau_never_ends), with two objectives a dominated chromosome or an IndexError results (two_objectives_wrong), a genetic starting scheduler always fails (genetic_start_fails). |
| C64 | Fitness functions rank schedules as documented | partial | 9 | Among schedules that meet the deadline the ranking is proved right, and a late schedule loses unless it needs fewer resources (deadline_first_partial); late_preferred_iff says exactly when it wins. False of the code: a late schedule is preferred if it saves resources by a larger factor than it is late (late_preferred); a chromosome that cannot be decoded is preferred to a schedule that costs more than the value of Time.inf() (incorrect_preferred). For time and peaks it comes last below that value (incorrect_last). SumOfResourcesFitness raises for every schedule with a worker (total_fails), both deadline functions raise for deadline 0. |
| C65 | A table of works becomes a work graph with exactly its works and links | partial | 11 | Proved in full for tables whose cells have one element per link. False as stated in English for: ids with leading zeros (leading_zeros_lose_link), spaces after commas (space_loses_link), missing lags (missing_lags_raise, missing_lag_negative), more types than predecessors (more_types_hang), both options without history (change_without_history). Volumes, names and requirements of works are not modelled; decimal numbers stand for floats. documented_columns_raise: a table with only the documented columns raises, as the undocumented column model_name is evaluated even when it is empty; no_granular_names_raise: all modes but the plain one need the column granular_name, which the documentation calls optional. Whether a text of model_name can be evaluated and mapped is a parameter (readModel). |
| C66 | History adds links and never takes one of the table away | partial | 4 | Proved for all_connections=False with and without change_connections_info; in the default mode links of the table stay (own_links_stay). False with change_connections_info (own_link_given_up) and with both options (mixed_up: types and lags are assigned in the order of history). Needs the column granular_name (see C65). |
| C67 | A work graph saved as a table and read again is the same work graph | partial | 5 | False as it stands: frame_not_made shows that to_frame raises for every work graph with a work, since it reads an entry volume_type that the dictionary of a work does not have. frame_raises: even if works are given such an attribute, reading the table raises, since the table has no column model_name and the program evaluates the empty text. round_trip_partial: with readable texts in such a column (everything else unchanged) the round trip gives the same works and the same edges between them, in order, plus an edge from the new start for works without a dependency; built_graph_round_trip_partial: for graphs built by the program the edges into every work are the same but for the id of the start. start_lag_lost: an edge from the start with a lag is not saved. Ids must be texts that table reading leaves alone (no commas, no leading zeros; see C65). Requirements, volumes, priorities and names are not modelled. |
| C68 | Links found in the records of past projects | partial | 11 | Proved: no_exception, order_of_records, linked_once, links_are_sound, met_works_are_linked, finished_before, overlapped, inside, majority (for works done once per site that never begin on the same day). False: the type is not that of most sites (one_overlap_decides: one overlap outweighs any number of finish-start sites), and works with equal dates count twice for the order of the table (equal_dates_count_twice). Dates are day numbers (texts YYYY-MM-DD compare in the same order), floats are rationals, rounding is a parameter. The lag is a share of a duration, but schedules take lags as hours. |
| C69 | Synthetic work graphs | partial | 11 | Proved for all outcomes of the random numbers: the loop ends, refused arguments are exactly those of the assertions, the graph is usable, the small graph has 30 to 50 vertices, clusters have the works asked for, and the three types link clusters as documented. False in the code: a bottom border up to 84 is missed when one cluster suffices, because the small graph is returned instead (bottom_border_missed); the top border is exceeded, the loop is left only after a round (top_border_exceeded; bound top + 127 or 164 proved); for k clusters there are k+1 or k+2 (cluster_count_partial); the small graph is made without the given generator, so the seed does not decide it (seed_does_not_decide). |
| C70 | Copies of a work graph are whole and independent | partial | 6 | Proved for dill. Copies by copy.deepcopy and pickle have the same start, finish and works, but never any links: __setstate__ makes a temporary graph of the same nodes, whose destructor clears them (deepcopy_lost). Graph objects without common works are independent; a second object over the same works takes the links with it (end_takes_shared_links). |
| C71 | An obstruction inserts a graph into a work graph | partial | 7 | Proved if the chosen candidate is a real successor and the inserted graph stays referred to. False otherwise: the start of the inserted graph is itself among the candidates, and if it is chosen the call never ends (always so at the finish); nothing waits for the inserted works, since the start and not the finish of the inserted graph is linked to the successor; an inserted graph nobody keeps loses its links; from_static_graph always raises, because deepcopy loses links. |
| C72 | Links of a work are read as they are | partial | 5 | Proved for all reads but neighbors, if all nodes have different ids. False for neighbors, which are never forgotten (neighbors_stale), and for nodes of different graphs with the same ids, which share one remembered chain (same_ids_mixed). Lists of links changed directly, as in delete_graph_node, are not covered. |
| C73 | Extending a synthetic graph renames requirements only | partial | 9 | Proved: requirements change only by longer kinds, different kinds stay different, the number of kinds is between the old and the wanted one. False: as many kinds as wanted (wanted_missed); a graph without requirements (no_requirements_raises) and every request for more names raises, because all works carry one name (names_raise, advanced_raises). |
| C74 | Random materials obey the given names and borders | partial | 6 | Proved: known names, each once, counts, top border, at least one material, exact failure condition. False: the bottom border, because names are drawn with repetition (bottom_missed), and borders without names are ignored (borders_ignored). |
| C75 | Random values of an interval lie in it | partial | 9 | Proved for reals of both intervals and for integers of uniform intervals with integer borders. False: integers of a uniform interval with other borders (uniform_int_outside) and of Gaussian intervals, whose borders are widened by 100000 (gaussian_int_outside) and raise if infinite, as by default (gaussian_int_raises). |
| C76 | Synthetic works can be done by a synthetic contractor | partial | 9 | Proved: all requirements make sense, professions, numbers up to scatter, and a contractor of two sets or more staffs every work if normal random numbers are at least -9 (true of CPython's generator). False: numbers stay inside the borders (border_exceeded) and one set is enough (one_set_missed); a wide scatter can give negative numbers (negative_number). |
| C77 | Random productivity stays within its borders | partial | 8 | `between`, `static_mode`, `set_for_contractor` and `set_for_all` hold as stated for intervals with positive borders. Witnesses prove what is false: a new estimator's own intervals have swapped borders, so with random productivity every work takes infinitely long (`new_estimator_infinite`); a Gaussian interval without borders may give a negative productivity and then the work is instant (`negative_is_instant`); a uniform interval raises when random productivity is off (`uniform_raises`); estimates are not repeatable (`not_repeatable`). |
| C78 | Generated transport networks are usable | partial | 12 | All parts are proved for two works or more and needs of at least two pieces. Witnesses prove what is false: a single work makes the generator raise (`single_work_raises`), chains beginning with a service work are on no platform (`service_chain_nowhere`), two places may be joined by two roads of different length and the distance table then has the longer one (`double_roads`), a material of which one piece is needed cannot be carried (`nothing_carried`). |
| C79 | Saved objects are loaded as they were | partial | 15 | A work is restored exactly from its dictionary (`work_dictionary`), and from text if it needs no equipment and no objects (`work_text_partial`); otherwise writing raises (`work_text_raises`). Workers lose their productivity (`worker_text_partial`); scheduled works lose equipment, materials and object (`scheduled_work_text_partial`), everything else and the order of a schedule is kept (`schedule_text_partial`), and saving again gives the same text (`schedule_again`). False of the code, with proofs: a schedule without works cannot be loaded, a cost that is a `numpy.float64` makes saving raise, a dictionary can be loaded only once (`dictionary_spent`), a pickled work has no name and no description (`work_pickled`). Whatever dictionary is loaded, the fields left out of the data of a class come back empty (left_out_fields_are_empty). |
| C80 | The table of a schedule shows its works | partial | 13 | Proved as stated: rows show works (`rows_show_works`), ordering with a graph and lookup (`ordered`, `dictionary`), the table without service works (`pure_rows`), dates (`dates`). Parts of model names are under their names if all works have the same parts (`model_name_shown_partial`). False of the code, with proofs: works with other parts show values in wrong columns (`wrong_column`), a work with more parts than the first makes the construction raise (`raises_iff`, `more_parts_raise`), `idx` is not the number of the row (`idx_not_row_number`), without a graph the execution time is that of the last given work (`execution_time_unordered`), an unfinishable work has no date (`infinite_date_raises`). |
| C81 | Generated block graphs have the requested shape | partial | 10 | Proved for queues: valid graphs (`queues_valid`), exactly the expected links (`queue_links`), all of a queue after all of the previous (if no queue is empty: `queue_after_queue`, `queues_in_turn`), independence inside (`queue_parallel`). For blocks proved for what is built before the graph is returned: `built_valid`, `built_ends`, `built_links`. False of the code, with proofs: `generate_blocks` raises for every graph that has a block with works, as a log line reads an attribute that the kind of a block does not have (`blocks_raise`); an empty block breaks the chain of sequential blocks (example); too few numbers of blocks for the number of queues raise (`queues_raise`). Before Python 3.12 an empty queue raises too (not modelled). |
| C82 | Auctions of the stochastic and neural managers choose as they say | partial | 15 | Proved: the weighted predictions (`winner_predicted`), confidence (`confidence_changes`, `confidence_never_raised`), refinement of the plain manager (`like_manager`), only the winner changes (`only_winner_changes`, `neural_only_winner`), when the auctions fail (`stochastic_fails_iff`, `neural_succeeds`), preferences of the neural manager (`free_first`, `predicted_scheduler_next`, `nearest_workers`). False of the code, with proofs: the delivered finish may be later than those other agents offer (`result_worse_than_offers`), the best offer may lose (`best_offer_loses`), the neural manager does not compare finishes (`neural_not_best`) and fails if nobody in the best group is near enough (`neural_may_fail`). |
| C83 | Agents keep to their workers over all blocks | proved | 7 |  |
| C84 | Accepted block schedules use no more workers than there are | partial | 7 | False as stated: blocks are validated one by one, so two blocks of an agent at the same time may use more workers than there are (overuse_accepted); contractors of two agents with the same id and other workers are not found (shared_id_accepted); a block that never finishes is not checked (infinite_block_accepted). Proved: what acceptance means exactly (accepted_iff), capacity if the blocks of an agent are carried out one after the other (within_capacity_partial), shared equal contractors are found. The check over all blocks that is commented out would refuse right schedules (disabled_check_refuses). |
| C85 | Local optimisation of a finished schedule keeps it executable | partial | 9 | False as stated: recalculated times are thrown away, so without inseparable chains the result is the old schedule (unchanged_without_chains, nothing_parallelized), which keeps precedence (precedence_without_chains_partial); with chains the later works of a chain get times of a timeline filled from the finish to the start while the first keeps its old times, which breaks precedence with both timelines (chain_torn); where a candidate with workers is accepted, an AttributeError is raised (attribute_error). The later works of a chain keep the team and the contractor of its first work (chain_keeps_team). |
| C86 | The supply of materials keeps its promises | partial | 9 | Proved for all histories: both questions agree, the moment found is not earlier, a yes is kept without an exception. That a no is justified and that the moment found is settled is proved when the works of the platform served so far got their materials before the moment asked for (and, for the second, also whenever the search waited for the last event of the platform). Without that it is false: refused_though_there, found_too_early. |
| C87 | Generated additional works leave the plan as it is and follow the given probabilities | partial | 10 | False for the default generator: it looks works up by the attribute name, which is the word dummy for every work, so set_names_generate_nothing (probabilities set one by one for real names generate nothing) and set_all_raises (a dictionary without the key dummy raises KeyError for every graph with a work); dummy_for_all_partial: only an entry for dummy is used, for all works. For every other generator all claims hold if the finish is a service unit (works_kept, generated_between, work_graph, order_kept, by_probability, exactly_hits); finish_generates_endless: otherwise a work generated for the finish makes the construction of the graph endless. order_kept asks that every work comes before the finish, exactly_hits that volumes and workers use other random generators. Copied works lose priority and description (C35). |
| C88 | The computational backend does not change what is computed | partial | 12 | Proved for all sequences of calls of the default backend (default_right), and of the multiprocessing one if nothing was set on the estimators (multi_right_partial). False: productivities and modes set on the estimator do not reach the processes (set_productivity_lost, estimator_ignored); without estimator the multiprocessing backend raises (no_estimator); one heuristic without a schedule makes the default first population raise (failed_heuristic_raises); the multiprocessing backend raises for weights the genetic scheduler accepts (own_weights_raise), and its individuals made from heuristics have the works in reverse order and no schedule (heuristic_individuals_incorrect). Random numbers of stochastic estimators and changes to objects after the pool was made are not modelled. |
| C89 | A list scheduler turns every work graph that can be staffed into a valid schedule | partial | 12 | Just-in-time timeline: proved as stated for priorities that agree with the dependencies between chains. Momentum timeline: proved without assigned durations and without positive lags inside a chain (both violate precedence, C11). False if only the priorities of works agree with the dependencies between works: agreeing_priorities_not_enough gives a schedule of HEFT in which a work starts before its predecessor is finished. |
| C90 | Works of smaller priority numbers are taken first | proved | 7 |  |
| C91 | A valid schedule becomes a valid chromosome with the same teams | partial | 4 | Proved when all contractors list the same kinds of workers in the same order. mixed_up_kinds_reject_valid_schedule shows that the claim is false otherwise: contractor_borders is filled by position, so a valid schedule of an accepted project becomes a chromosome that fails the check. Zones are not modelled here. |
| C92 | The genetic scheduler returns only valid schedules | partial | 11 | Proved for contractors that list the same kinds of workers in the same order, graphs with dependencies only, numbers of workers not fixed in the specification, no work marked as independent and a first work without workers; a decoding is valid or some time has reached infinity, and without delays by materials and zones and with a bound on lags and durations it is valid and ends within a computed time (decoding_completes, free_schedules_complete, deadline_schedules_complete). mixed_up_kinds_exceed_capacity: with kinds in different orders an accepted chromosome is decoded to a schedule with more workers than the contractor has; for fixed numbers and independent works see C28. The serial scheme and zones are not part of the composition. |
| C93 | The extended sorted list replaces the item it is told to and stays in order | partial | 8 | Proved for lists with different keys, and for equal keys that exactly one item of the key changes. False for assignment when keys may be equal (another item is replaced) or the new value has another key (the order is lost); both proved by examples. |
| C94 | A transport network shows the roads that were laid | partial | 11 | The graph, the matrix and first readings of edges and neighbours are proved for every history. False: neighbours and edges are remembered at the first reading and stay as they were, even after reinit; a constructor with neighbours raises AttributeError; nodes created without an id share one id. |
| C95 | The pipeline with automatic lag optimization does the project that was given | partial | 4 | Proved for projects without inseparable edges and without a specification whose priorities agree with all edges or whose edges are all dependencies, if the project surely ends before infinity and materials and zones do not limit it. False otherwise, proved by examples: a specification for a work that is divided is ignored, since its first stage has another id; an urgent work after a start-start edge makes the schedule break a finish-finish edge. |
| C96 | Works that need a zone in different states never overlap in a schedule | partial | 6 | Proved for both timelines if changes of status cost nothing and for the zone requirements of the first work of a chain; for LFT on a just-in-time timeline also that a schedule is returned. False in general: with costs a work can start in the middle of an incompatible chain (costs_break_zones_jit, costs_break_zones_momentum), and the requirements of later works of a chain are ignored (chain_requirements_ignored). |
| C97 | In a schedule every work starts when its materials arrive, and depots and roads are respected | partial | 5 | Proved for both timelines: one request per work, arrival at the start, stocks and roads (jit_served, momentum_served), for landscapes with roads of positive length, works that need no more than a platform can store, and bookings inside the calendar. Needs of platforms are covered on a just-in-time timeline if the works of a platform depend on each other and need one material each. False in general: fleets (fleet_exceeded) and platforms with works beside each other (works_beside_each_other_overdraw). |
| C98 | Deliveries of the to-start supply timeline | partial | 10 | Proved: stocks, roads, arrival, preference of nearer depots, promises. False: materials in time whenever a depot can bring them (later_than_possible: depots leaving at the same moment are not compared), and fleets (fleet_exceeded). |
| C99 | The genetic scheduler's schedules respect zones and materials | partial | 5 | False if changes of status take time (costs_break_zones: works 1 and 2 overlap), and decoding raises an exception for works marked as independent that need the same zone (independent_works_raise), because they are placed without asking the zones. Proved for free changes of status and no independent works. The first chain is placed at the start time without asking and is assumed to need no zones. |
| C100 | Zones in the chromosomes of the genetic scheduler | partial | 6 | The operators are proved. Decoding in the serial scheme is false: MomentumTimeline.schedule returns None, the serial scheme asks the zone timeline for a start from None on, and with at least one zone that raises; serial_with_zones_raises proves that no chromosome of any landscape with zones can be decoded. Without zones the zone part has no influence (serial_without_zones). |
| C101 | The preparation pipeline builds the graph and the contractors that were given | partial | 16 | The settings, the links for every combination of the two options, the contractors of lists and files, generated contractors and the works of a structure estimator are proved. False of the code, and proved as such: build_wg_and_contractors ignores the structure estimator; without contractors (the default), with an empty list or file, or with a data frame (a documented type) it always raises; a project given as a work graph raises in both methods; with fix or fill and no history (the default) both methods raise; fill makes no difference once fix is on (fix also adds links); a contractor file with the id as third column loses a type of workers and counts the id as workers. |
| C102 | Materials do not delay works the search has placed | partial | 6 | Proved for works that begin a chain, on a momentum timeline (works with needs must have workers and not begin the project) and for decoded schedules. False for the other works of a chain, whose materials nobody asks for before (followers_late), and for the list schedulers on a just-in-time timeline, whose search ignores the works before (jit_late). |
| C103 | Independent works have their workers for themselves in the whole schedule | partial | 4 | Proved on the just-in-time timeline for every list scheduler (jit_independent_exclusive and its instances). False on the momentum timeline (momentum_not_exclusive): the search of an independent work respects the works placed before, but nothing keeps later works from its hours. |
| C104 | Deadline-driven scheduling returns valid schedules and keeps deadlines it has seen to be kept | partial | 7 | Proved for generic base schedulers on a just-in-time timeline (jit_valid_for_every_deadline, jit_minimum_keeps_deadline, jit_tried_level_keeps_deadline_partial); on a momentum timeline a returned schedule is valid within the range of Time (momentum_valid_partial). False: a deadline that some level of resources keeps may be missed, because more resources may be slower (reachable_deadline_missed), and with LFT as base the levels have no effect (lft_not_accelerated). |
| C105 | The terms given in a schedule specification are kept in the whole schedule | partial | 12 | Proved for LFT on both timelines (on the just-in-time timeline with validity, exclusiveness of independent works and existence of a schedule), and for the generic schedulers when all or no worker numbers of a work are given. False and refuted: terms of works that follow another one inseparably are ignored (follower_terms_not_kept, follower_terms_have_no_effect); on the momentum timeline an assigned time can make a staffable project fail (momentum_given_time_fails); partly given numbers can be overwritten by the generic schedulers (C16.fixed_count_overwritten); independence on the momentum timeline is refuted in C103. |
| C106 | LFT spreads the works evenly over the contractors | partial | 10 | Proved as stated when every contractor is able to do every work (choice, even, schedule_even, schedule_even_momentum); teams, validity and positive weights in general. False otherwise and refuted: the counter is increased at the index among the accepted contractors (lft/base.py:232), so works of one contractor are counted for another; for every n, n works that two contractors can do equally well all go to the one that already did n works alone (wrong_contractor_counted). Scores are rational numbers in the model, floats in the code. |
| C107 | Order optimizers of a pipeline and the schedule | partial | 5 | (1)-(3) are proved. (4) is false: in every project whose finish is a work of its own, an area with all works puts the finish of the project first (the candidates of the swap look only at direct neighbours on the wrong side), so the momentum scheduler places it at the project start, before everything it depends on (whole_area_finish_first, with a concrete schedule in whole_area_breaks_precedence). |
| C108 | The pipeline without automatic lag optimization does the project | partial | 5 | Proved for projects whose chains are entered only at their heads (any priorities), and for all chains if the priorities are equal. Without this (2) is false: a work inside a chain that depends on a work of higher priority value is placed with its chain, before that work, and starts too early (chain_entered_later). Links other than finish-start and inseparable are ignored when lag optimization is switched on or off (other_links_ignored), so the theorems are about finish-start graphs. For LFT the works of a chain ask for the same worker types as its head and lags inside chains are not positive. |
| C109 | The priority queue after every history of calls | partial | 5 | (1)-(3) are proved. (4) is false: decrease_key looks for the value with its new key, does not find the old item and adds the value again, after every history and for every changed key (decrease_changed_duplicates, taken_twice). |
| C110 | The search for the minimum of a function of one number | proved | 6 |  |
| C111 | Validation does not reject the schedules of the schedulers | partial | 5 | False without provisions: a chain whose works have different requirements (different_requirements_rejected) and negative lags (negative_lag_rejected) make validation raise for schedules that the scheduler itself makes. Proved for non-negative lags and chains of works that are alike; for the momentum timeline for runs within the range of time. |
| C112 | The genetic scheduler returns valid schedules, not worse than its heuristics | proved | 3 |  |
| C113 | The genetic scheduler with the serial scheme returns valid schedules | proved | 2 |  |
| C114 | Collection helpers lose nothing that is distinct and keep the order | partial | 9 | reverse_dictionary loses keys whenever two keys have the same value (equal_values_are_lost, for every such dictionary); reverse_twice_partial needs distinct values. The rest is proved in full. |
| C115 | The pipeline with the genetic scheduler does the project that was given | proved | 2 |  |
| C116 | The tables of a finished pipeline show the schedules that were made | proved | 4 |  |
| C117 | From a list of works to the table of a valid schedule | proved | 4 |  |
| C118 | The numbers that describe a work graph | partial | 12 | False in the code, with proofs: encode_graph raises for every graph, because metric_longest_path calls the sorting function of the scheduler with two of its four arguments (encode_fails); with a correct call the loop of metric_longest_path would answer 1 for every graph with a dependency, since it takes the works from the end of the order (longest_path_is_one); metric_graph_parallelism_degree raises for every graph, because it compares works with 0 and GraphNode.__eq__ reads an attribute that numbers do not have (parallelism_fails); with a working comparison the degrees would depend on the order in which a set is iterated (not_determined). Proved: with a working comparison the loop over levels ends, counts no work twice in a level and misses no reachable work; eight degrees between 0 and 1 with the stated means; the other metrics; coding and decoding of indices. metric_resource_constrainedness (outside encode_graph) is proved for volumes that are numbers (constrainedness_partial) and raises for volumes of the declared type Time (constrainedness_fails). |
| C119 | Names of works are mapped as the table says, and back | partial | 6 | False in the code, with proofs: get never answers, as the result is not returned (get_never_answers); of names with the same unique name the inverse gives at most one back (shared_unique_name); a name outside the table that equals a unique name comes back as another name (unknown_name_renamed). Proved: the mapping and its inverse row by row, the way there and back for tables without repetitions, columns of names, mapping twice. |
| C120 | Sampled works keep the given limits, similar works are scaled | proved | 4 |  |
| C121 | Requirements in a table of works become requirements of its works | partial | 5 | False in the code, with proofs: kinds of workers that the estimator does not name for any row are dropped without an error, and a work that needs only such workers becomes a service work (unknown_kinds_dropped); with the documented columns min_req and max_req alone the columns have no effect (documented_columns_ignored); volumes read from a file stay text and raise an exception as soon as a requirement is sound (volumes_from_file_raise). Proved: the exact requirements for tables with all three columns as dictionaries, and that saved requirements of known kinds come back. |
| C122 | Volumes, zone statuses, descriptions, groups and priorities in a table of works | partial | 3 | Proved in both directions for tables in which statuses are texts of dictionaries (works_partial). False in the code for dictionaries themselves, the documented type of required_statuses, and for empty cells: eval raises for anything that is not a text, and one such row makes the whole table fail (documented_statuses_raise). What to_frame puts together has volumes and priorities only (read_back). |
| C123 | A pipeline object that is used more than once | partial | 8 | Proved: settings in any order (first_as_set), any history if contractors are a list or set again (again_partial), finish if nothing it looks at was changed (finish_partial), and for all histories that finish does not raise and shows the first ones of its own schedules (finish_own). False in the code: contractors generated for the first graph are used for all later ones, so that a graph is refused that a new pipeline schedules (again_fails, generated_stay); finish reads graph, contractors and node orders of the input object when it is called, so that schedules are lost and shown with foreign graphs and contractors (finish_fails). The work estimator given to the pipeline does not reach the scheduler (estimator_unused). |
| C124 | Costs of scheduled works follow the prices of contractors | partial | 10 | Proved: costs are number times price times duration if prices are left at their default of ten times the mean productivity (costs_partial); exactly what is charged for all prices, and when making the team raises (charged); what a copy keeps (copy_keeps), whose workers a team has (teams, teams_belong), and the cost of a schedule (total, total_named). False in the code: Worker.copy does not pass the price on, and every scheduler makes teams of copies, so that prices set by contractors have no influence on any cost (prices_ignored, total_ignores, prices_fail). |
| C125 | Building work graphs from the same works more than once | partial | 3 | Proved for works of the second call that are not linked to those of the first (others_partial). False in the code, for all inputs: a second call with the same works always raises (again_fails), and a second call with these and further works always gives a graph in which none of the works of the first call can be reached from the start, without an error (more_fails). |
| C126 | The record of deliveries of a work | partial | 5 | Proved: the record is exact if no list object is handed over twice (recorded_partial), always for single deliveries as the timelines add them (singles); lists that are not the first ones of their material stay as they are (lists_stay). False in the code: add_deliveries keeps the caller's list itself, so that a list handed over for two materials mixes them (twice_fails) and later deliveries are added to the caller's list (lists_fail). |
| C127 | Platforms of works and holders of nodes in a landscape | partial | 9 | Proved: the platforms (platforms_iff); the platform of a work that is at one node without holder (platform_partial), that a platform found is right (platform_sound), and exactly when there is none (no_platform); holders if no two share a node (holder_partial). False in the code: a work placed at a node with a holder has no platform, so that supplying it raises KeyError (at_holder_fails); of two holders at one node the first is never found (holders_fail). |
<!-- /results -->

## Tests against wrong programs

`tools/mutate.py` edits the model in a scratch copy and rebuilds; `seeded/LOG.jsonl` records every attempt.  Theorems that survived
an edit although their claim became false were tightened (field `tightened`).

## Axioms

<!-- axioms -->
**no axioms** (18 theorems)

* C109: `taken_twice`
* C126: `twice_fails`, `lists_fail`
* C16: `fixed_counts_ignore_limits`
* C22: `WorkGraph.ok`
* C35: `copied_fields`, `copy_loses_priority`
* C37: `all_asked`
* C44: `auto_succeeds`, `on_ignored`, `on_not_restructured`
* C52: `without_graph_last_row_only`
* C72: `neighbors_stale`
* C82: `result_worse_than_offers`, `best_offer_loses`, `neural_not_best`
* C87: `dummy_for_all_partial`
* C98: `nothing_needed`

**propext** (38 theorems)

* C114: `flatten_flat`, `first_is_first`
* C119: `get_never_answers`
* C16: `partly_fixed_fails`, `fixed_count_overwritten`
* C17: `infinite_schedule_not_checked`, `missing_kind_accepted`, `mixed_team_accepted`
* C29: `optimum_can_be_missed`
* C39: `unavailable_road_in_route`, `distance_of_last_road`, `table_route_endless`
* C40: `statuses_overlap`, `change_too_short`, `final_statuses_fail`
* C43: `append_lost`, `empty_iteration_fails`
* C45: `check_fails`
* C50: `later_work_overlaps_independent`
* C53: `jit_picks_later_finish`
* C54: `endless_work_fails`, `negative_chain_lag_fails`
* C56: `empty_population_fails`
* C60: `downtime_counted_twice`
* C63: `two_objectives_wrong`
* C72: `right_unique`, `same_ids_mixed`
* C78: `plain_fair`
* C79: `empty_schedule_raises`
* C80: `pure_rows`
* C81: `queues_raise`
* C82: `neural_may_fail`
* C84: `overuse_accepted`, `shared_id_accepted`
* C87: `set_names_generate_nothing`
* C93: `set_item_outside`, `other_item_replaced`, `order_lost`

**Quot.sound, propext** (153 theorems)

* C01: `operators_exact`, `operators_monotone`, `add_nonneg_duration`, `add_assoc_nonneg`
* C02: `workers_conserved`, `counts_never_negative`, `updates_succeed`
* C10: `jit_every_work_once`, `momentum_every_work_once`, `jit_entry_iff`
* C100: `serial_without_zones`, `serial_with_zones_raises`
* C101: `settings`
* C102: `followers_late`, `jit_late`
* C105: `follower_terms_have_no_effect`
* C107: `optimizers_compose`, `whole_area_breaks_precedence`
* C11: `jit_respects_precedence`, `momentum_positive_lag_in_chain_violated`
* C111: `negative_lag_rejected`
* C114: `flatten_reads_all_values`, `last_item_wins`, `entry_per_item`, `keys_once`, `reverse_twice_partial`, `equal_values_are_lost`
* C118: `one_hot_error`, `longest_path_is_one`
* C119: `mapped_as_in_table`, `there_and_back_partial`, `unknown_name_renamed`
* C121: `documented_columns_ignored`
* C126: `recorded_partial`, `singles`, `lists_stay`
* C127: `platforms_iff`, `platform_sound`, `at_holder_fails`, `holders_fail`
* C13: `exactShare_fair`, `zero_volumes_equal`
* C15: `borders_of_able_contractor`, `no_team_otherwise`
* C20: `chain_priority_breaks_order`
* C21: `consistent_unchanged`
* C23: `forward_start_and_finish_swapped`, `chains_are_missed`
* C24: `one_priority_no_crossover`
* C25: `one_priority_no_mutation`
* C26: `mating_stays_within`
* C27: `order_check_exact`, `borders_are_capacities_partial`, `borders_mixed_up`, `empty_order_accepted`
* C28: `independent_work_overtakes_predecessors`, `infinite_work_truncates_schedule`
* C29: `average_extremes`
* C31: `order_can_change`
* C35: `work_not_deleted`, `chain_not_deleted`
* C36: `work_graph_links`, `copy_reversed`, `copy_not_equal`
* C37: `winner_is_best`, `auction_fails_iff`, `result_is_best`, `only_winner_changes`, `check_meaning`
* C39: `holders_by_distance`
* C40: `transition_recorded_partial`
* C41: `delivery_in_time`
* C42: `columns`, `total_fails`
* C44: `off_original`
* C46: `productivity_set`
* C49: `jit_accepts_over_demand`
* C53: `jit_report`
* C54: `assigned_duration_fails`
* C55: `borders_kept`
* C57: `cheap_individual_can_be_lost`
* C59: `plain_neighbours`, `plain_neighbours_overlap`, `no_neighbours_fails`, `direct_link_fails`
* C60: `downtime_partial`
* C61: `orders_in_turn`, `unchanged`, `optimized_partial`, `second_fails`
* C64: `total_fails`
* C70: `end_spares_others`, `end_takes_shared_links`
* C71: `nobody_waits`, `not_kept_lost`, `static_graph_raises`
* C72: `answers_current_partial`
* C73: `no_requirements_raises`
* C77: `set_for_contractor`, `set_for_all`
* C78: `double_roads`, `nothing_carried`
* C79: `left_out_fields_are_empty`
* C81: `blocks_raise`
* C82: `winner_predicted`, `confidence_changes`, `confidence_never_raised`, `only_winner_changes`, `like_manager`, `stochastic_fails_iff`, `predicted_scheduler_next`, `nearest_workers`, `neural_only_winner`
* C83: `manager_picks_agent`
* C84: `accepted_iff`, `shared_contractor_found`, `infinite_block_accepted`
* C85: `timelines_only_chain`, `timelines_old_team`, `works_keep_times`, `chain_keeps_team`, `unchanged_without_chains`, `precedence_without_chains_partial`, `attribute_error`, `chain_torn`
* C86: `found_not_earlier`, `delivered_when_promised`
* C87: `exactly_hits`, `set_all_raises`
* C88: `lft_population`, `failed_heuristic_raises`, `multi_population_drawn`, `own_weights_raise`, `heuristic_individuals_incorrect`
* C89: `agreeing_priorities_not_enough`
* C90: `randomized_needs_agreement`
* C93: `merge_updates`, `set_item_replaces`, `merge_one_item`, `collects`, `halve_splits`
* C94: `ids_found`, `edges_remembered`, `neighbours_at_creation_raise`
* C96: `costs_break_zones_jit`, `costs_break_zones_momentum`, `chain_requirements_ignored`
* C97: `fleet_exceeded`, `works_beside_each_other_overdraw`
* C98: `delivery_in_time`, `found_not_earlier`, `delivered_when_promised`, `delivered_when_found`

**Classical.choice, Quot.sound, propext** (625 theorems)

* C01: `construct_in_range`, `operators_in_range`, `construct_exact`, `floordiv_exact_or_error`, `is_inf_iff`
* C03: `capacity_never_exceeded`, `reported_start_fits`
* C04: `start_is_earliest_release`, `independent_start_is_latest_release`
* C05: `independent_works_exclusive`
* C06: `available_eq_capacity_minus_usage`, `capacity_never_exceeded`, `update_succeeds_iff_room`, `validate_iff_room`
* C07: `found_slot_is_feasible`
* C08: `found_slot_is_earliest`, `slot_search_terminates`
* C09: `starts_after_placed_predecessors_partial`, `assigned_start_after_placed_predecessors`, `assigned_duration_ignores_predecessors`
* C100: `mate_rows`, `mutate_entries`, `mutate_uses_draws`, `bred_proper`
* C101: `only_the_table`, `fill_keeps_links`, `fix_changes_links`, `fill_without_effect`, `no_links_raise`, `history_needed`, `graph_raises`, `same_graph`, `contractors_of_file`, `contractors_without_ids`, `generated_contractors`, `contractors_needed`, `estimator_adds_works`, `estimator_ignored`, `misplaced_id_loses_workers`
* C102: `momentum_prompt`, `decoded_prompt`, `free_schedules_prompt`, `deadline_schedules_prompt`
* C103: `jit_independent_exclusive`, `lft_independent_exclusive`, `generic_independent_exclusive`, `momentum_not_exclusive`
* C104: `jit_valid_for_every_deadline`, `jit_minimum_keeps_deadline`, `jit_tried_level_keeps_deadline_partial`, `minimum_keeps_deadline`, `momentum_valid_partial`, `lft_not_accelerated`, `reachable_deadline_missed`
* C105: `untouched_terms`, `last_call_decides`, `team_as_counts`, `lft_jit_keeps_terms`, `lft_jit_schedules_to_terms`, `lft_momentum_keeps_terms`, `generic_jit_keeps_terms_partial`, `generic_jit_valid_partial`, `generic_momentum_keeps_terms_partial`, `follower_terms_not_kept`, `momentum_given_time_fails`
* C106: `assigns`, `even`, `choice`, `random_weights_positive`, `schedules`, `refuses`, `schedules_momentum`, `schedule_even`, `schedule_even_momentum`, `wrong_contractor_counted`
* C107: `inner_areas_no_effect`, `outside_area_raises`, `whole_area_finish_first`
* C108: `refused_iff`, `heft_executes_partial`, `lft_executes_partial`, `chain_entered_later`, `other_links_ignored`
* C109: `extremum_after_history`, `drains_in_order`, `decrease_unchanged`, `decrease_changed_duplicates`
* C11: `jit_finish_after_start`, `momentum_finish_after_start`, `momentum_respects_precedence_partial`, `momentum_assigned_duration_violates`
* C110: `search_ends`, `search_rounds`, `finds_minimum`, `asks_inside`, `no_tolerance_no_end`, `constant_part_misleads`
* C111: `valid_schedule_passes_partial`, `jit_validation_changes_nothing_partial`, `momentum_validation_passes_partial`, `different_requirements_rejected`
* C112: `returns_valid_schedules`, `validation_changes_nothing`, `not_worse_than_heuristics`
* C113: `decoding_completes`, `returns_valid_schedules`
* C114: `keys_in_order`
* C115: `parallel_executes`, `serial_executes`
* C116: `tables_show_schedules`, `heft_finishes`, `lft_finishes`, `genetic_finishes`
* C117: `builds`, `heft_from_works`, `lft_from_works`, `genetic_from_works`
* C118: `one_hot`, `rounds`, `parallelism_partial`, `not_determined`, `parallelism_fails`, `encode_fails`, `degrees`, `averages`, `constrainedness_partial`, `constrainedness_fails`
* C119: `shared_unique_name`, `columns`
* C12: `jit_chain_in_order_by_one_team`, `momentum_chain_in_order_by_one_team`
* C120: `sampled`, `error_iff`, `similar_work`, `similar_count`
* C121: `given_partial`, `unknown_kinds_dropped`, `volumes_from_file_raise`, `saved_partial`
* C122: `works_partial`, `documented_statuses_raise`, `read_back`
* C123: `first_as_set`, `again_partial`, `estimator_unused`, `generated_stay`, `finish_partial`, `finish_own`, `again_fails`, `finish_fails`
* C124: `charged`, `costs_partial`, `prices_ignored`, `copy_keeps`, `teams`, `teams_belong`, `total`, `total_named`, `total_ignores`, `prices_fail`
* C125: `others_partial`, `again_fails`, `more_fails`
* C127: `no_platform`, `platform_partial`, `platform_last`, `holder_last`, `holder_partial`
* C13: `durations_sum_to_assigned`, `durations_nonneg`, `exact_durations_nonneg`, `durations_proportional`
* C14: `search_returns_best`, `search_fails_iff`, `search_raises_only_with_runner`
* C15: `length_test_exact`
* C16: `optimizers_stay_within`, `chosen_contractor_enabled`, `chosen_team_meets_requirements`, `fully_fixed_team_partial`, `fully_fixed_team_meets_requirements`, `partly_fixed_team_partial`, `identity_keeps_fixed`, `lft_team_meets_requirements`, `lft_accepts_iff`
* C17: `accepted_is_executable_partial`, `executable_is_accepted`
* C18: `rows_ordered`, `rows_topological`
* C19: `error_iff_cycle`, `levels_complete`, `any_flattening_is_an_order`, `levels_are_earliest`
* C20: `heft_partial`, `heft_ranks_are_longest_paths`, `lft_partial`, `randomized_lft`, `randomized_lft_ends`, `topological_partial`
* C21: `corrected_priorities`
* C22: `one_head`, `collapse_preserves_dependencies`, `error_iff_chain_cycle`, `collapse_tables`, `collapse_feeds_prioritization`
* C23: `reversed_orders_partial`, `forward_inner_areas_partial`
* C24: `mating_keeps_orders`, `mating_keeps_validity`, `crossover_keeps_order`, `crossover_takes_both`, `unsorted_orders_fail`
* C25: `mutation_keeps_validity`, `group_mutation`
* C26: `mutation_stays_within`, `border_mutation_stays_within`, `different_borders_can_break`
* C27: `contractor_check_exact`
* C28: `serial_every_work_once`, `serial_chains`, `serial_respects_precedence_partial`, `serial_within_capacity`, `parallel_every_work_once`, `parallel_chains`, `parallel_finish_after_start`, `parallel_respects_precedence_partial`, `parallel_within_capacity_partial`, `parallel_finishes`, `parallel_completes`, `fixed_counts_exceed_capacity`
* C29: `dichotomy_within_borders`, `dichotomy_near_minimum`, `coordinate_descent_within_borders`, `full_scan_within_borders`, `average_within_borders`, `partly_fixed_team_fails`
* C30: `search_terminates`, `probed_deadline_met_partial`, `outcome_is_closest_probe`, `reachable_deadline_met`, `search_succeeds`, `all_resources_never_tried`, `exact_minimum_lost`, `specification_is_dropped`
* C31: `round_trip_partial`, `same_works`
* C32: `exact_edges`, `source_and_sink`, `error_iff`, `project`
* C33: `reachable_once_predecessors_first`, `ends`, `ends_iff`
* C34: `never_fails`, `nodes_are_stages`, `volume_conserved`, `amounts_conserved`, `stages_nonneg`, `undivided_unchanged`, `stages_form_chain`, `only_finish_start`, `edges_go_forward`, `edges_realized`, `dependencies_kept`, `every_stage_reached`, `competing_edges_fail`, `names_of_split_work_change`
* C35: `copy_same`, `copy_works`, `delete_keeps_rest_partial`, `delete_chain_partial`
* C36: `order_respects`, `work_graph_whole`
* C37: `starts_after_dependencies`, `blocks_scheduled`, `check_passes`
* C38: `elimination_succeeds`, `result_acyclic`, `result_is_part`, `removed_on_cycle`, `acyclic_unchanged`, `table_acyclic`, `table_removed_on_cycle`, `acyclic_table_unchanged`
* C39: `constructed_route_shortest`, `distances_shortest_partial`, `no_way_through_zero`, `table_route_shortest_partial`
* C40: `one_status_partial`, `search_succeeds_partial`
* C41: `stock_not_exceeded`, `road_not_overcrowded`, `delivery_chosen`, `delivery_made`, `needs_covered_partial`, `trip_as_booked_partial`, `fleet_exceeded`, `vehicles_overloaded`, `roads_booked_earlier`, `storage_overdrawn_large`, `storage_overdrawn_part`, `storage_overdrawn_order`
* C42: `rows`, `usage_exact`, `peak_exact`, `peaks_sum_exact`, `cost_exact`
* C43: `made`, `removals`, `operations_partial`, `iteration_incomplete`
* C44: `auto_smaller`, `pipeline_done`
* C45: `answer_exact`, `accepted_iff_partial`, `accepted_teams`, `refused_no_team`
* C46: `not_negative`, `empty_team`, `estimated`, `time_exact`, `infinite_iff`, `more_workers`, `output_at_least`, `beyond_maximum`, `nobody_is_fast`
* C47: `owns_bound`, `owns_only`, `generated_iff`, `owns_exactly`, `accepted`
* C48: `united_partial`, `spans_stages`, `succeeds`, `unsplit_unchanged`, `execution_time_kept`, `numbered_by_name`, `id_kept`, `id_kept_same`, `table_partial`, `cost_lost`, `id_may_change`, `table_duration`, `ids_merged`, `ids_counted_twice`
* C49: `jit_rejects_iff_above_double_partial`, `momentum_rejects_over_demand`
* C50: `independent_after_earlier_partial`
* C51: `jit_schedule_within_capacity`, `momentum_schedule_within_capacity`
* C52: `execution_time_is_latest_finish`
* C53: `momentum_report`, `momentum_finishes_first`, `jit_finishes_first_partial`
* C54: `jit_delivers`, `momentum_delivers`, `lft_chooses_team`, `lft_delivers_jit`, `lft_delivers_momentum`, `optimizers_answer`, `generic_delivers_jit`, `generic_delivers_momentum`
* C55: `valid_is_accepted`, `mating_valid`, `mutation_valid`, `offspring_valid`
* C56: `never_worse_than_first`, `best_of_all_evaluated`
* C57: `deadline_met_if_reachable`, `first_meets_deadline`
* C58: `population_size`, `all_initial_schedules_included`, `at_least_every_initial_schedule`, `small_population_can_miss`
* C59: `work_inserted`, `graph_inserted`, `ids_simplified`, `first_id_random`
* C60: `auction_events`
* C62: `critical_partial`, `nearly_longest`, `path_once`, `reported`, `reported_unchanged`, `not_longest`, `chain_omitted`
* C63: `ends_partial`, `result`, `best_seen_partial`, `genetic_keeps`, `improves_heuristics`, `genetic_start_fails`, `no_plateau_never_ends`, `heuristic_forgets`, `swings_forever`
* C64: `in_time_by_resources`, `late_preferred_iff`, `deadline_first_partial`, `late_preferred`, `zero_deadline_fails`, `incorrect_last`, `incorrect_last_cost_iff`, `incorrect_preferred`
* C65: `table_to_graph`, `acyclic_table_to_graph`, `predecessor_meant`, `leading_zeros_lose_link`, `space_loses_link`, `missing_lags_raise`, `missing_lag_negative`, `more_types_hang`, `documented_columns_raise`, `no_granular_names_raise`, `change_without_history`
* C66: `links_with_history`, `own_links_stay`, `mixed_up`, `own_link_given_up`
* C67: `frame_not_made`, `frame_raises`, `round_trip_partial`, `built_graph_round_trip_partial`, `start_lag_lost`
* C68: `no_exception`, `order_of_records`, `linked_once`, `links_are_sound`, `met_works_are_linked`, `finished_before`, `overlapped`, `inside`, `majority`, `one_overlap_decides`, `equal_dates_count_twice`
* C69: `cluster_works`, `small_graph`, `generated`, `bottom_border_partial`, `top_border_partial`, `cluster_count_partial`, `modes`, `same_numbers_partial`, `bottom_border_missed`, `top_border_exceeded`, `seed_does_not_decide`
* C70: `constructed`, `dill_copy`, `deepcopy_works_partial`, `deepcopy_lost`
* C71: `inserted_partial`, `own_start_endless`, `at_finish_endless`, `by_chance`
* C72: `chain_answered`
* C73: `already_enough`, `requirements_kept_partial`, `different_stay_different`, `number_of_kinds_partial`, `wanted_missed`, `names_raise`, `advanced_raises`, `advanced_without_names`
* C74: `given_names_partial`, `given_names_only`, `default_names`, `raises_iff`, `bottom_missed`, `borders_ignored`
* C75: `uniform_inside`, `uniform_int_partial`, `uniform_int_all`, `uniform_int_outside`, `gaussian_inside`, `gaussian_swapped`, `gaussian_int_raises`, `gaussian_int_partial`, `gaussian_int_outside`
* C76: `requirements_make_sense`, `scaled`, `no_length`, `professions`, `numbers_partial`, `contractor_staffs`, `one_set_missed`, `border_exceeded`, `negative_number`
* C77: `between`, `static_mode`, `new_estimator_infinite`, `negative_is_instant`, `uniform_raises`, `not_repeatable`
* C78: `generated`, `single_work_raises`, `connected`, `placed_once`, `service_chain_nowhere`, `dealt_evenly`, `platform_capacity`, `stock_for_all`, `few_vehicles`
* C79: `work_dictionary`, `work_keys`, `work_text_partial`, `work_text_raises`, `work_pickled`, `worker_text_partial`, `worker_numpy_raises`, `worker_numpy_integer`, `scheduled_work_text_partial`, `schedule_text_partial`, `schedule_again`, `contractor_text_partial`, `dictionary_spent`
* C80: `rows_show_works`, `raises_iff`, `model_name_shown_partial`, `wrong_column`, `more_parts_raise`, `dictionary`, `ordered`, `idx_not_row_number`, `execution_time_partial`, `execution_time_unordered`, `dates`, `infinite_date_raises`
* C81: `queue_links`, `queues_valid`, `queue_after_queue`, `queue_parallel`, `queues_in_turn`, `built_valid`, `built_ends`, `built_links`
* C82: `free_first`, `neural_succeeds`
* C83: `within_capacity`, `blocks_logged`, `works_scheduled`, `works_after_dependencies`, `jit_precedence`, `momentum_precedence`
* C84: `within_capacity_partial`, `disabled_check_refuses`
* C85: `nothing_parallelized`
* C86: `can_iff_found`, `promise_kept`, `refusal_justified_partial`, `found_settled_partial`, `found_settled_after_waiting`, `found_too_early`, `refused_though_there`
* C87: `works_kept`, `generated_between`, `work_graph`, `order_kept`, `finish_generates_endless`, `by_probability`
* C88: `default_right`, `multi_right_partial`, `set_productivity_lost`, `estimator_ignored`, `no_estimator`, `default_population`, `multi_population`
* C89: `heft_order`, `lft_order`, `random_lft_order`, `topological_order`, `rules_answer`, `jit_feasible`, `momentum_feasible_partial`, `lft_jit_schedules`, `generic_jit_schedules`, `lft_momentum_schedules`, `generic_momentum_schedules`
* C90: `heft`, `lft`, `topological`, `randomized_lft`, `schedulers`, `randomized_scheduler`
* C91: `tables_describe_project`, `feasible_schedule_converts`, `scheduler_result_converts`, `mixed_up_kinds_reject_valid_schedule`
* C92: `generation_valid`, `decoded_feasible`, `decoding_ends`, `decoding_completes`, `free_hall_valid`, `deadline_hall_valid`, `free_schedules_feasible`, `deadline_schedules_feasible`, `free_schedules_complete`, `deadline_schedules_complete`, `mixed_up_kinds_exceed_capacity`
* C94: `graph_built_iff`, `matrix_shows_roads`, `new_graph`, `edges_once_partial`, `neighbours_first_partial`, `neighbours_remembered`, `works_kept`, `default_id_shared`
* C95: `lft_executes_partial`, `heft_executes_partial`, `specification_of_divided_work_ignored`, `urgent_work_breaks_edges`
* C96: `jit_zones_partial`, `momentum_zones_partial`, `lft_jit_schedules_with_zones`
* C97: `jit_served`, `momentum_served`, `jit_needs_covered_partial`
* C98: `stock_not_exceeded`, `road_not_overcrowded`, `nearer_depot_preferred`, `later_than_possible`, `fleet_exceeded`
* C99: `decoded_respects`, `free_schedules_respect`, `deadline_schedules_respect`, `costs_break_zones`, `independent_works_raise`
<!-- /axioms -->

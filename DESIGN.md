# Formal model of scikit-decide (`/repo`) — design

The repository is Python (with C++ solvers in `cpp/`). The model is written by hand in
Lean 4 from the source text; the code is never run. Each Lean definition cites the file
and lines it models. Property theorems live in `lean/Verif/Props/*.lean`, models in
`lean/Verif/Model/*.lean`, helper lemmas in `lean/Verif/Lemmas/*.lean`.

## Trusted base

* Lean 4.33.0 kernel; the axioms `propext`, `Classical.choice`, `Quot.sound`
  (at most; listed per theorem at the end). No own axioms, no `sorry`, no
  `native_decide`, no `bv_decide`.
* The reading of the Python source: the tie between model and code is the
  citation comment of each definition.
* Numbers. Python `int` is `Int`/`Nat`. Python `float` is modelled by exact
  numbers (`Int` or `Rat`): rounding, NaN and infinities are not modelled except
  where a definition says so (e.g. `inf` as `none`).
* Randomness is a parameter: a function that draws random numbers takes the drawn
  values as arguments, so a theorem over all arguments covers every draw. Iteration
  orders of Python sets are parameters as well, or sorted where the elements are
  small integers.
* Exceptions are values: a function that can raise returns `Except PyErr α`
  (or `Option α` where only one kind is possible).
* Mutation is state passing. Where aliasing matters the definition says so.
* `dict` is an association list with "first key wins" lookup and in-place update,
  so insertion order is preserved as in Python ≥ 3.7.

## What is modelled

| Lean module (`Verif/Model/`) | Code | Not modelled there |
|---|---|---|
| `Core` | `skdecide/core.py`: `TransitionValue`, outcomes, casts (`cast`, `autocast`), distributions, constraints | renderers, type-annotation plumbing, `D`/`T_` generic declarations |
| `Domain` | `builders/domain/memory.py`, `initialization.py`, `dynamics.py` (step, sample, next-state chains), `utils.py` (`rollout`, `rollout_episode`, `match_solvers`), `solvers.py` (`check_domain`) | rendering and printing in roll-outs, saving of files, an absent step limit |
| `Sched` | `builders/scheduling/scheduling_domains.py` (state updates, action check, goal), `scheduling_domains_modelling.py`, `task.py`, `modes.py`, `precedence.py`, `resource_renewability.py` (release), `conditional_tasks.py`, `skills.py`, `task_progress.py` | `_get_transition_value`, `SchedulingDomain`'s initial-state distribution, `time_windows`, `time_lag`, per-unit resource domains, Gantt plotting |
| `Durations` | `task_duration.py` | - |
| `Policies` | `hub/solver/sgs_policies/sgs_policies.py` | the solver construction around the policies |
| `Worlds` | `hub/domain/{maze,simple_grid_world,mastermind,rock_paper_scissors}`, `hub/solver/simple_greedy`, enumerable part of `hub/space/gym` | rendering |
| `Search` | `hub/solver/lazy_astar`, `hub/solver/lrtastar` | raising domains |
| `CppAStar` | `cpp/src/hub/solver/astar.hh`, and of the C++ library the binary heap behind `std::priority_queue` (libstdc++) | the parallel execution policy, timing, logging, the Python binding |
| `Mdp`, `Lrtdp` | `cpp/src/hub/solver/lrtdp.hh` (sequential execution, one rollout at a time) | the parallel execution policy, `online_node_garbage`, the watchdog, logging, the Python binding |
| `AoStar` | `cpp/src/hub/solver/aostar.hh` (sequential execution) | the parallel execution policy, logging, the Python binding |
| `PlanGraph` | the nodes, the walk back along the parents, the queries and the priority queue that iw.hh and bfws.hh share | — |
| `Iw` | `cpp/src/hub/solver/iw.hh` (sequential execution, nodes identified by the state) | the parallel execution policy, hashing by features, logging, the Python binding |
| `Bfws` | `cpp/src/hub/solver/bfws.hh` (sequential execution, nodes identified by the state, finite heuristic values) | the parallel execution policy, hashing by features, logging, the Python binding |
| `Ilao` | `cpp/src/hub/solver/ilaostar.hh` (sequential execution) | the parallel execution policy, logging, the Python binding |
| `Pile` | `rcpsp/solver/rcpsp_pile.py`: `PileSolverRCPSP.solve`, `Executor.compute_schedule_from_priority_list` | mode choice, missing dictionary entries, printing |
| `Calendar` | `rcpsp/solver/rcpsp_pile.py`: `PileSolverRCPSP_Calendar.solve` | partial solutions given, the unread table of the non-renewable resources, empty calendars |
| `Mcts` | `cpp/src/hub/solver/mcts.hh` with its default options: `DefaultTreePolicy`, `FullExpand`, `UCB1ActionSelector`, `BestQValueActionSelector`, `DefaultRolloutPolicy`, `GraphBackup`, `solve` and the queries | `PartialExpand`, custom policies, parallel execution, step/sample transition modes, garbage collection of nodes, time budget, doubles (an ordered field instead) |
| `MultiSkill` | `rcpsp_multiskill/rcpsp_multiskill.py`: `sgs_multi_skill`, `MS_RCPSPModel.satisfy`, `intersect` | salaries, experience values, random sampling of solutions, constraint and linear programming solvers |
| `LeftShift` | `rcpsp_multiskill/solvers/lns_post_process_rcpsp.py`: `sgs_variant` | the choice of solutions to be shifted in `build_other_solution`, the graph of predecessors |
| `Knapsack` | `knapsack_model.py`, `dyn_prog_knapsack.py`, `greedy_solvers.py`, `mutation_knapsack.py` | LP, CP and LNS solvers, parser |
| `Moves` | `generic_tools/mutations/*.py`, `do_mutation.py` | attributes other than the one moved |
| `Results` | `result_storage.py`, `multiobj_utils.py` | plots, `resultcomparator.py` |
| `LocalSearch` | `generic_tools/ls/*.py` | float temperature schedule (acceptance is a parameter) |
| `Objectives` | `do_problem.py` | MEDIAN and PERCENTILE of robust problems |
| `MsEncoding` | `rcpsp_multiskill/rcpsp_multiskill.py`: `schedule_solution_to_variant`, `MS_RCPSPSolution_Variant`, `copy`, `to_variant_model`, `MS_RCPSPModel_Variant` | `_schedule_to_recompute`; negative activity numbers; the kind of exception for absent lists of workers |
| `MsRep` | `rcpsp_multiskill/rcpsp_multiskill.py`: `build_multimode_rcpsp_calendar_representative` | horizon bounds; the first resource of the set is a parameter |
| `Defaults` | `builders/domain/dynamics.py`, `initialization.py`, `observability.py`, `events.py`, `goals.py`, `core.py` (spaces, sampling), `functools.lru_cache` | info of outcomes; distributions other than discrete ones; domains that compare equal though they are different objects |
| `SchedRollout` | `resource_renewability.py`, `scheduling_domains.py` (`_is_terminal`), `utils.py` (loop of `rollout`) | several episodes, verbosity, observations |
| `Binding` | `sk_to_do_binding.py`, `do_solver_scheduling.py` (`from_solution_to_policy`), `rcpsp_sk.py` (`MRCPSP`), `precedence.py`, `graph_toolbox.py` (maps) | skills, stochastic and calendar classes, solver choice |
| `Stochastic` | `rcpsp_sk.py` (`Stochastic_RCPSP`, `build_stochastic_from_deterministic`, `build_n_determinist_from_stochastic`) | graph nodes labelled with drawn durations |
| `Milp` | meaning of the programs given to `mip` and `gurobi` | continuous variables, tolerances, the search of the library |
| `ColoringLp` | `coloring/solvers/coloring_lp_solvers.py` | solver parameters, printing |
| `FacilityLp` | `facility/solvers/facility_lp_solver.py` | solver parameters, printing, start solutions |
| `KnapsackLp` | `knapsack/solvers/lp_solvers.py` | solver parameters, `solve_lns` around the restricted programs |
| `RcpspLp` | `rcpsp/solver/rcpsp_lp_solver.py`: `LP_RCPSP`, `LP_MRCPSP` | MIP start, `LP_MRCPSP_GUROBI`, solver parameters |
| `TspLp` | `tsp/solver/solver_lp_iterative.py`: `build_graph_complete`, `build_graph_pruned`, `LP_TSP_Iterative.init_model_cbc/init_model_gurobi/solve`, `build_the_cycles`, `rebuild_tsp_routine` | hints and MIP starts, plots, file output, `MILPSolver` choice, floats |
| `Explore` | `hub/solver/graph_explorer/`: `DFSExploration`, `FullSpaceExploration`, `reachable_states`, uncertain `DFSExploration`, `GraphDomain`, `GraphDomainUncertain` | paths on the stack, printing, `to_networkx`, sharing of rows after `merge` |
| `Lns` | `builders/discrete_optimization/generic_tools/`: `lns_mip.py` `LNS_MILP.solve_lns`, `lns_cp.py` `LNS_CP.solve_lns` | printing, time limits other than the clock checks, building of models; solver, handler and post-processing are arbitrary functions |
| `LpLns` | `discrete_optimization/`: `facility/solvers/facility_lp_lns_solver.py` `ConstraintHandlerFacility`, `coloring/solvers/coloring_lp_lns_solvers.py` `ConstraintHandlerFixColorsGrb`, `ConstraintHandlerFixColorsPyMip`, `rcpsp/solver/rcpsp_lp_lns_solver.py` the three constraint handlers | MIP starts, removal of the rows (see `Lns`), initial solution providers; the random draws are parameters |
| `Riw` | `cpp/src/hub/solver/riw.hh`: rollouts, novelty, `fill_child_node`, `update_node`, `backup_values`, widths, `solve`, answers | parallel policies, `online_node_garbage`, environment rollouts that differ from the simulation, logs, callbacks |
| `PolicyEval` | `policy_evaluator.py`, `meta_policies.py`; set orders, random draws and the results of `rollout_episode` are oracles | policies and domains that raise; prints; `reset`, `_is_policy_defined_for` |
| `Ttp` | `ttp_model.py`: `evaluate`, `evaluate_with_details`, `TTPModel.evaluate`; `mutation_ttp.py`: `MutationTTPKnapsack`, `MutationTTPKnapsackBest`, `Mutation2Opt` | `find_intersection`, `MixingMutation`, plots, the parser; items without profit (probabilities that are not numbers) |
| `Pomcp` | `pomcp.py`: `_reset`, `_get_next_action`, `_filter_belief_state`, `_update_belief_state`, `_get_best_action`, `_tree_search`, `_rollout`, `get_probability` | the sampling of the initial belief (any list); the list of states kept in a node |
| `Gym` | `hub/domain/gym/gym.py`: `GymDomainStateProxy`, `GymWidthDomain` (BEE1, BEE2 and binary features), `GymDiscreteActionDomain._discretize_action_space` | `EllipticalMapping2D`; `nb_of_binary_features` (always a TypeError); the random choice of `branching_factor` actions |
| `GymEnv` | `hub/domain/gym/gym.py`: `DeterministicInitializedGymDomain`, `DeterministicGymDomain`, `GymPlanningDomain`, `AsGymEnv` | rendering, printing, seeds; `GymDiscreteActionDomain.get_state` of arrays; environments that are not deterministic |
| `Cgp` | `hub/solver/cgp/pycgp/cgp.py`, `pycgp/cgpes.py`, `cgp.py` | saving and loading genomes, `to_dot`, `to_function_string`; the functions of the library; episodes inside `evaluate` (an oracle); several CPUs; floats with whole values as bounds of `randint` are accepted, as in Python before 3.12 |
| `CpmSgs` | `rcpsp/solver/cpm.py` 127-255, 278-364 | `unlock_task_transition`, printing; modes other than 1; `get_first_time_to_do_one_task`, orders by default (`return_order_cpm`) are parameters |
| `PilePolicy` | `hub/solver/pile_policy/pile_policy.py`; `scheduling/precedence.py` 41-71 | the networkx search (levels instead); the solver's own copy of the domain is the one played; `predecessors_map` (unused) |
| `SimpleGreedy` | `hub/solver/simple_greedy/simple_greedy.py` | the automatic casts of the domain (C15) |
| `Gphh` | `hub/solver/gphh/gphh.py` 29-46, 69-117, 217-220, 277-284, 579-582, 667-686, 720-808, 814-817, 887-911 | the evolution (library deap); critical path and other features (any values); the schedule of the serial scheme (any complete schedule); p-values and repeated values in Kendall's coefficient |
| `MsLp` | `rcpsp_multiskill/solvers/lp_model.py` 290-510 | the solver library; parameters and printing (439-525) |
| `Hindsight` | `hub/solver/_hindsight/hindsight.py` 37-118 | thread pool (items run one after the other), stored plans (never read), printing |
| `SchedMore` | `builders/scheduling/time_windows.py`, `time_lag.py`, `resource_costs.py` 26-60; `scheduling_domains.py` 109-124, 242-251, 280-410 (distributions), 597-628, 764-799 | sharing of dictionaries between the outcomes of one start; rewards and values of uncertain transitions |
| `SchedUnits` | `builders/scheduling/scheduling_domains.py` 678-695, 943-1102; `skills.py` 61-75 | random generator (draws and shuffled orders are parameters) |
| `Parse` | `knapsack_parser.py` 11-28; `coloring_parser.py` 10-22; `tsp_parser.py` 13-29; `vrp_parser.py` 13-35; `facility_parser.py` 10-26; `rcpsp_parser.py` 19-101; `ttp_parser.py` 15-117 | opening files, translation of line ends, non-ASCII white space and digits, underscores in numbers, exponents, constructors of the problems |
| `Ars` | `hub/solver/ars/ars.py` 25-193 | tuples within tuples, action boxes of several dimensions, how perturbations are drawn, `generate_perturbations` (never called), rounding |
| `Ga` | `generic_tools/ea/ga.py` 38-360; `ea/alternating_ga.py` 64-96 | deap itself (documented behaviour of `mutUniformInt`, `selTournament`, `HallOfFame`, `eaSimple`), crossovers, other selections, statistics, custom mutations |
| `GraphApi` | `generic_tools/graph_api.py` 5-76; `scheduling/graph_toolbox.py` 5-96; `rcpsp/rcpsp_model.py` 507-515; `rcpsp/rcpsp_utils.py` 366-383 | networkx itself (documented behaviour of the calls used), `check_loop` |
| `Views` | `rcpsp/rcpsp_utils.py` 14-57, 163-266, 355-363 | plots, boxes, `activity_last_n_hours`, `kendall_tau_similarity` |
| `Helpers` | `rcpsp/rcpsp_data_generator.py` 6-129 | printing; `np.random` and `random` are parameters |
| `Correct` | `rcpsp/rcpsp_model.py` 1097-1109, 1123-1188 | `evaluate_function` (base class), `evaluate_from_encoding`; negative starts |
| `Robust` | `rcpsp/rcpsp_model.py` 874-903, 933-1078; `generic_tools/do_problem.py` 155-170; `robustness_tool.py` 20-72 | `evaluate` of the aggregated model (C54); scipy distributions are exact rationals; multiprocessing and plots |
| `CpRcpsp` | `rcpsp/solver/cp_solvers.py` 46-170 (`CP_RCPSP_MZN`); `rcpsp/minizinc/rcpsp_single_mode_mzn.mzn` | search annotations, the solver itself, statuses, intermediate solutions |
| `CpMulti` | `rcpsp/solver/cp_solvers.py` 204-297, 389-405 (`CP_MRCPSP_MZN`); `rcpsp/minizinc/rcpsp_multi_mode_mzn.mzn` | calendars, partial solutions, search annotations, the solver itself |
| `CpKnapsack` | `knapsack/solvers/cp_solvers.py`; `knapsack/minizinc/knapsack_mzn.mzn`, `knapsack_global.mzn` | time limits, statuses, intermediate solutions, fitness, the recorded lists of `solve_lns`, the solver itself |
| `CpFacility` | `facility/solvers/facility_cp_solvers.py`; `facility/minizinc/facility_int.mzn`, `facility_int_lns.mzn` | time limits, statuses, search annotations, the solver itself |
| `CpColoring` | `coloring/solvers/coloring_cp_solvers.py`; `coloring/coloring_toolbox.py`; neighbourhood, post-processing and `solve_lns` of `coloring/solvers/coloring_cp_lns_solvers.py`; `coloring/minizinc/*.mzn` | time limits, statuses, search annotations, networkx, the solver itself |
| `CpTsp` | `tsp/solver/tsp_cp_solver.py`; `build_matrice_distance` of `tsp/common_tools_tsp.py`; `tsp/minizinc/*.mzn` | time limits, statuses, search annotations, rounding of floats, the solver itself |
| `CpModes` | `CP_MRCPSP_MZN_MODES` of `rcpsp/solver/cp_solvers.py`; `rcpsp/minizinc/mrcpsp_mode_satisfy.mzn` | partial solutions, time limits, prints, the solver itself |
| `CpNeigh` | `rcpsp/solver/rcpsp_cp_lns_solver.py`: the three constraint handlers | rounding of floats, `build_neighbor_operator` (a table of parameters), `LNS_CP_RCPSP_SOLVER` |
| `CalBreaks` | `rcpsp/solver/calendar_solver_iterative.py`: `get_ressource_breaks`, `PostProcessSolutionNonFeasible`, cuts of `ConstraintHandlerAddCalendarConstraint` | negative times, capacity strings of single breaks, `SolverWithCalendarIterative.solve`, prints |
| `MaxEnt` | `hub/solver/maxent_irl/maxent_irl.py`: indices, expectations, gradient, updates, `_solve_domain`, `_sample_action` | tuples of spaces, infinite bounds, files, plots, scores |
| `CpVrp` | `vrp/minizinc/vrp.mzn`, `vrp/solver/vrp_cp.py`: `cp_solving` | time limits, statuses, prints, the import error |
| `Comparator` | `generic_tools/result_storage/resultcomparator.py`; `result_storage.py`: `get_best_solution`, `remove_duplicate_solutions`, `result_storage_to_pareto_front` | plots, prints, numpy broadcasting; scenarios are any function of solution and objective |
| `Imopse` | `rcpsp_multiskill/rcpsp_multiskill_parser.py`: `write_solution`, `parse_results`, `recompute_solution` | opening and closing files |
| `ImopseRead` | `rcpsp_multiskill/rcpsp_multiskill_parser.py`: `parse_imopse` | skills are a list in the order found instead of a set; calendars |
| `TspTools` | `tsp/common_tools_tsp.py`: `compute_length`, `baseline_in_order`, `build_matrice_distance_np`, `closest_greedy` | lengths of pairs and the order of equal distances are parameters; overflow |
| `VrpTools` | `vrp/vrp_toolbox.py`: `compute_length_matrix`, `prune_search_space`, `build_graph`, `recompute_output`, `output_result` | the text of the objective and the order of equal distances are parameters |
| `OrTools` | `vrp/solver/solver_ortools.py`, `tsp/solver/solver_ortools.py`: costs, reading of the assignment | the library with its indices and assignment is a parameter; prints, search parameters, time limits |
| `MsLpLns` | `rcpsp_multiskill/solvers/ms_rcpsp_lp_lns_solver.py`: the two constraint handlers | draws and the best solution are parameters; removal of rows |
| `Registry` | `rcpsp/rcpsp_solvers.py`, `rcpsp_multiskill/rcpsp_multiskill_solvers.py`: `solvers`, `solvers_map`, `solvers_compatibility`, `look_for_solver` | classes are names; `solve`, `return_solver`, prints |
| `GanttLp` | `rcpsp/solver/rcpsp_lp_solver_gantt.py`: `intersect`, `LP_MRCPSP_GANTT.__init__`, `init_model` | cliques as parameter; objective; look-ups of activities; `retrieve_solutions` |
| `GanttWork` | `rcpsp/solver/rcpsp_lp_solver_gantt.py`: `LP_MRCPSP_GANTT_GUROBI.adding_constraint`, `build_objective_function_from_a_solution` | names of constraints; `retrieve_solutions`, `solve` |
| `CgpFuncs` | `hub/solver/cgp/pycgp/cgpfunctions.py`, `cgp.py`: `_get_default_function_lib` | real numbers for floats; names of functions |
| `SkLoader` | `hub/domain/rcpsp/rcpsp_sk_parser.py`: `load_multiskill_domain` | name of an employee as parameter; reading of the file; items passed on unchanged |
| `Portfolio` | `generic_tools/mutations/mixed_mutation.py`; `mutation_catalog.py`: `get_available_mutations` | exact weights; number drawn and order of the set of types as parameters; `np.random.choice` as the number of cumulated weights at most the number drawn |
| `RcpspMut` | `rcpsp/mutations/mutation_rcpsp.py`; `rcpsp_model.py`: copies, `__setattr__` and evaluation of `RCPSPSolution` | schedule generation, permutation of a schedule, objective and new values as parameters; local moves |
| `Coloring`, `Facility`, `Vrp`, `Tsp` | the `*_model.py` files, the greedy solvers, `mutation_tsp.py`, part of `graph_api.py` | LP/CP/OR-tools solvers (external back ends), parsers, plots |
| `Rcpsp`, `Cpm` | `rcpsp_model.py` (schedule generation, continuation, checks, permutation, consumption), `solver/cpm.py` | CP/LP/LNS solvers, data generator, parser |
| `Parallel`, `Shm` | `skdecide/domains.py` 364-846 | process start/stop, flags and conditions of the shared-memory variant |
| `Py`, `Sort` | Python vocabulary: errors, dictionaries, indexing, stable sort | - |

Everything else in `/repo` is not modelled.

## Plan per property

| id | model | proof |
|----|-------|-------|
| C01 | `TransitionValue.__init__` as a function of two optional numbers | case analysis |
| C02 | a `Shape`/`Val` datatype and the `cast` interpreter over `cast_dict` | induction on shapes; memory→plain takes the *oldest* element in the code: negation + partial |
| C03 | outcomes with agent dictionaries | list lemmas |
| C04 | distribution as list of pairs, draw as cumulative-weight choice | induction on the list |
| C05 | `_step` memory update, deque with `maxlen` | invariant over step list; unbounded/zero history are handled wrongly by the code: negation + partial |
| C06 | rollout loop over an abstract environment and policy | induction on steps |
| C07 | outer loop of `rollout` | the save-directory option returns after one episode: negation + partial |
| C08 | candidate filter on requirement lists | list lemmas |
| C09 | worker slots as a state machine with launch / finish / read | invariant over reachable states |
| C10 | register offset arithmetic | arithmetic; result registers: negation + partial |
| C11–C15, C48, C49, C61–C63 | the scheduling `State` and its eight update functions | invariants by induction over action lists; zero-duration resource leak: negation + partial; C62 by a decreasing measure |
| C16 | the six policy functions over an abstract applicability check | list search lemmas |
| C17 | DP table as recurrence, back-tracking | induction on items, exchange with an independent optimum spec |
| C18 | `evaluate`, `satisfy`, bit-flip moves | algebra, invariant over move lists; mutation's second branch evaluates the old solution: negation |
| C19 | density-sorted greedy with the index error | invariant of the loop; heavy item raises: negation + partial |
| C20, C21, C46 | moves on lists | `List.Perm`, involution; several swaps undone in the same order: negation + partial |
| C22, C47 | `add_solution` with the heap limit | invariant; minimisation with limit: negation + partial |
| C23, C24 | dominance on lists, `add_point` | invariant over added points |
| C25, C53 | hill climbing / annealing loops over abstract fitness and draws | invariant; stores created with default direction: negation + partial |
| C26, C27, C57 | serial SGS loop | invariant of the resource profile |
| C28, C58 | `satisfy`, `generate_permutation_from_schedule` | equivalence with declarative spec; negation where they differ |
| C29, C59, C60 | forward and backward pass with the heap | phase invariant, longest chains as inductive predicate |
| C30, C31, C56 | the two encodings, legs, two-opt delta, swap delta | round-trip, list algebra |
| C32, C55 | violations, renumbering, greedy choice | list lemmas |
| C33 | cost details fold | overwritten violation: negation + partial |
| C34 | `trivial_solution` loop | invariant; unserved customers: negation + partial |
| C35, C36, C51 | search loop with priority list | invariants, A* optimality argument |
| C64–C66 | graph, heap and closed set as state; pointers as states, an address inside a node as a reference to the node | invariants; heap order; negation witnesses for the mutated heap and for repeated solves |
| C67–C70 | the graph as a dictionary of nodes; probabilities, costs and values as rationals; draws and clock as oracles | invariant on values; stack invariant of the label check; negation witnesses for depth, goals and dead ends |
| C71–C73 | the same; loops with a number of rounds; the order of sets as a parameter | graph invariant (nodes agree with their successors); acyclic relations on finite sets are short; negation witnesses |
| C74–C76 | graph with parents, queue as parameter (and the library heap), clock as parameter | parents lead to the root with scores at least the cost of the way; covering invariant (generated states are queued, expanded or have only seen tuples); the front of the chain of tuples stays in the queue; negation witnesses |
| C77–C79 | the same graph and queue; map from heuristic values to pairs (place, value) | expanded nodes are closed under taking parents, successors of expanded nodes are queued or expanded; heap order for the heuristic, which does not change; the stored pairs are those of the history; negation witnesses |
| C80–C82 | state nodes with value, label, reach bit and passage time; each phase of the main loop with a number of rounds | values stay below any bound that some action attains; tips are reached and unlabelled, expanded nodes have successors; last sweep of value iteration; fixpoint of the reach bits; negation witnesses (the incomplete policy was found by random search on a copy of the model) |
| C83–C85 | schedule, available set, waiting sets, free amounts and heap as lists; the choice is a parameter | one invariant ties heap, waiting sets and free amounts to the schedule; loads bounded by the heap; preference invariant over the order of starts; negation witnesses |
| C86–C87 | the pile model with a table of remaining capacities per time; rounds limited by fuel | the pile invariant for the project without resources, plus: table = calendar minus load; time bounded by the durations started; negation witnesses, the endless one by induction on the rounds |
| C88–C91 | a graph of state nodes and action nodes as two tables; draws and set orders as parameters; values in any ordered field | one invariant linking outcomes, parents, visits and expansion; what each phase may change; bounds through means; two decreasing measures for exploration; the UCB1 bonus over the reals |
| C92–C94 | the rows of resources and the calendars of workers as lists; the parts shared with `Rcpsp` reuse its model | one invariant over the list of placements made so far: rows are capacities minus what is charged, calendars are what the employees offer minus engagements; every placement remembers why it could not be earlier; acceptance as a conjunction of look-up facts |
| C95 | the loop over activities sorted by start, with calendars as lists | invariant: calendars are what the employees offer minus the windows shifted so far, every entry remembers why it could not be earlier; in a valid schedule the old window is still free when an activity's turn comes |
| C96 | as for C26–C28 and C58 | schedule generation in the order of a schedule: the activity picked is a first one among those not placed; nothing is later so far, hence what runs at or after its start ran then in the schedule given; the converse by the greedy choice of the run that made the schedule |
| C37, C52 | trial with value table | admissibility invariant |
| C38 | argmax loop | list lemmas |
| C39, C50 | transition functions | case analysis, triangle inequality along paths |
| C40 | scoring loops | counting argument |
| C41 | table | finite case analysis + induction on rounds |
| C42 | index lookups | list lemmas; duplicates: partial |
| C43–C45, C54 | direct | direct |
| C97 | as for C92–C94 | sorted keys without source and sink are a permutation of the inner activities; a list of workers starting with those noted is a permutation of the employees; ranks of distinct values are a permutation of 1 to n |
| C98 | as for C94 and C28 | slots of rows as sums over employees; the load of a skill is at most the level of disjoint teams at work |
| C99 | C04, C05 | every draw below 1 selects an entry of positive weight and every such entry has a draw; the memory is the list of recent states |
| C100, C101 | — | membership agent by agent; the entry of a domain moves back at most by the number of other domains asked |
| C102 | C49, C62, C13 | the state follows the plan: what is in use is what the plan runs, so every start is accepted at its time |
| C103 | C61, C13 | what is used of a non-renewable resource only grows, by the need of each start |
| C104 | C16, C62 | with nothing ongoing the first ready task is accepted |
| C105 | C28, C26 | the feasible plans of the domain written in terms of the schedule and the needs of the project |
| C106 | C105, C26, C102 | the generated schedule is a feasible plan; C102 replays it; the record is read back |
| C107 | C105 | the arguments for the drawn project describe it completely; needs and precedence are compared entry by entry |
| C108 | C32 | closed form of the built program; a 0-1 sum equal to one has one one |
| C109 | C33 | closed form of the built program; exchange of the two sums over facilities and customers |
| C110 | C23 | dictionary of variables in list order; 0-1 assignment = packing |
| C111 | C26 | a 0-1 sum equal to one picks one start; the windowed sum is the load |
| C112 | C26, C28 | one pick of mode and start per task; rows become statements on picks; the check of C28 |
| C113 | C22 | flow rows as one edge out and one in; walking along chosen edges; joining keeps a path; pigeonhole on sets of edges |
| C114 | – | invariant with the actions dealt with per state; unknown states plus stack as a measure |
| C115 | – | what one successor changes; each state entered once |
| C116 | – | loop invariant over the list of results; the constraints present are those of the last handler call |
| C117 | – | loop invariant; the counter is the length of the run without strict improvement |
| C118 | – | rows added to the programs of C108 and C109; membership of each row, then the readings of feasible assignments |
| C119 | – | rows added to the programs of C111 and C112; windows as intervals |
| C120 | – | invariant of all calls: graph tells the truth; depth as length of a walk |
| C121 | – | fold over duplicate-free tuples; counters of the loops; terminal nodes stay unsolved until a trajectory ends |
| C122 | – | generic repair lemma for the backup (disorder moves up along edges); rank as measure of a rollout |
| C123 | – | invariant of the rollouts: solved inner nodes have the value of their children (same repair lemma as C122); induction over ranks against an inductive definition of plans; the table knows the depth of each state |
| C124–C125 | – | invariant of the depth-first search; invariant of the backward loop against step-bounded probabilities and costs |
| C126–C127 | – | bookkeeping invariant over positions and traces; first minimum of a list |
| C128 | – | induction over the tour with the cities visited so far; counting occurrences |
| C129 | – | case analysis of the switches; weight of a packing with one entry replaced |
| C130 | – | invariant of the tree under expansion and recording; frame: a search changes no shorter history |
| C131 | – | UCT score of some child below the bound; cumulative weights |
| C132 | – | well-formed tables; tables only grow, so that a settled value stays settled |
| C133 | – | value of a list of binary digits; lengths of digits are monotone |
| C134 | – | flattened elements of one space split at the same places |
| C135 | – | membership, number and absence of duplicates of combinations |
| C136 | values of environments under their references; sequences of actions of returned states | every returned state agrees with its action sequence |
| C137 | – | the planning domain runs the deterministic one |
| C138 | the initial context is never changed by resets and steps | outputs from equal environments are equal |
| C139 | – | – |
| C140 | values by depth after each run | the marked nodes at each point of the sweep are those needed by later nodes |
| C141 | each gene below its limit | draws that give a genome |
| C142 | the first of the greatest | induction on the iterations from either end |
| C143 | shares of [-1, 1] | cell by cell |
| C144 | what remains = what was there without what is used, at each time | invariant over placements; failed scans stay failed as usage grows |
| C145 | ends within the durations placed so far | everything is free there; least rank is ready |
| C146 | all have started: usage falls; time passed is covered by work | invariant over rounds |
| C147 | levels grow or are closed; first maximum | filter of the remaining tasks |
| C148 | work left bounds the steps | as C104 |
| C149 | the running maximum is the greatest of the prefix | induction over the list |
| C150 | stable sort; uniqueness of sorted permutations | insertion |
| C151 | sorted positions by distance | bounds of mean and median |
| C152 | sums over time | induction over the duration |
| C153 | all pairs concordant iff equal | counting smaller numbers |
| C154 | C16 and C104 with a policy per state | generalised rollout |
| C155 | assignments are plans; C94 | counting sums of indicators |
| C156 | the assignment of a plan | the same equivalence backwards |
| C157 | values are sums over the scenarios that have been looked at | invariant over both passes and all calls |
| C158 | unseen states have no values | direct sums |
| C159 | windows as intervals of starts and ends | arithmetic; one run |
| C160 | telescoping sum along runs | induction on runs |
| C161 | membership in lists of outcomes, step by step | refinement of the simulation; sums of products |
| C162 | membership in the enumerated list | exact characterisation; invariant of runs |
| C163 | team gathered so far | induction over the shuffled order |
| C164 | lines read so far | round trip: render, split, convert |
| C165 | dictionaries filled so far | induction over tasks and their modes |
| C166 | lines left | round trip, one lemma per header line |
| C167 | steps of an episode, shape of the policy | loop induction; sorting is a permutation |
| C168 | observations so far | count, mean and squared deviations as an invariant |
| C169 | genes drawn so far | induction over the places |
| C170 | generations so far | the hall of fame bounds all populations reached |
| C171 | runs so far | loop induction with fuel |
| C172 | edges added so far, rounds of the search | fold invariants; the nodes found grow until closed |
| C173 | activities and successors so far | induction over both lists |
| C174 | activities added so far | each cell is a sum over the activities that run |
| C175 | activities booked so far, in the order of starts | invariant: a unit free at the last start is free from then on |
| C176 | dictionaries of modes and successors | invariants of the loops over activities; ranks for acyclicity; graph reachability for the sink |
| C177 | schedule | load of the others plus the helper; the old start always fits, so the search stops there at the latest |
| C178 | projects | folds over entries; aggregated values between minimum and maximum; loads are monotone |
| C179 | dictionaries of laws | the tree of laws entry by entry |
| C180 | distributions | sums of probabilities; quantiles from cumulated sums; validity is monotone |
| C181 | values of the variables of the program | the load over all activities is at most that over the tasks of the cumulative constraint; two disjunct tasks running together exceed a capacity |
| C182 | values of the variables of the program | exactly one mode runs in each block of numbers, so filtering the numbers gives the chosen modes in order; loads as for one mode |
| C183 | values of the variables; states of the search | decreasing lists with the same nonzero numbers are equal; reading marks the chosen items; induction over the answers |
| C184 | values of the variables; states of the search | sums over facilities as in C109; difference of the setup costs; induction over the answers |
| C185 | values of the variables; states of the search | positions of names; renumbering of C32; pigeonhole over colours; induction over the answers |
| C186 | circuits as orders of all nodes; values of the variables | rotation of the circuit; induction over the path; sums over nodes and legs; division with remainder |
| C187 | numbers of modes; values of the variables | induction over the activities; counting; reading loop |
| C188 | windows of starts; all calls of the mixed handler | membership in filtered lists; division with remainder; invariant over the calls |
| C189 | requirements at all times; other schedules; the growing list | induction over requirements and activities; order of sums; first and last element found; loop with rest |
| C190 | observations, worlds, trainings | floor on cells; any property kept by the update rule is kept by training; last saved epoch by induction |
| C191 | all solutions of the program, all plans | routes between copies of the depot by induction over their ends; permutations cancel the copies; sorting by length |
| C192 | all lists of stores | induction over stores and solutions; dominance is a strict order |
| C193 | all solutions and texts | words and lines as in C164; entries of one task by induction over tasks and hours |
| C194 | all files and rows | the tables after some lines are those of the rows so far; names by counting smaller numbers |
| C195 | all points and orders | induction over the nodes left; coinciding nodes are visited by number |
| C196 | all distances, routes and tours | counting in sorted rows; words of joined lines |
| C197 | all assignments of the library, all distances | induction along routes; flattened routes without repetition |
| C198 | all plans, drawn tasks and bounds | plans and assignments of C155 and C156 |
| C199 | all tables and classes | last occurrence in reversed lists |
| C200 | all schedules, calendars, requirements, covers by cliques | variables by loops; sums of zeros and ones as counts |
| C201 | all programs, intervals, bounds, duties, earlier solutions | times counted one by one; rows appended |
| C202 | all arguments, genomes, sizes and sequences of inputs | bounds of real functions; invariant of the graph over runs |
| C203 | all projects and names | dictionaries filled by loops |
| C204 | all weights and numbers drawn | cumulated sums, induction |
| C205 | all solutions, generators and objectives | cases on the flag and on what raises |

Nothing in the list is considered inexpressible. Real parallelism (C09, C10) is
modelled at the level of atomic steps on shared data.

## Wrong-program tests

`seeded/LOG.jsonl` records, one line per attempt, an edit of the model in a scratch copy that a realistic
bug would cause, the claim it breaks, the theorems whose proofs fail and the theorems tightened as a result.


## Status per property and disagreements between claim and code

Full statements are in `properties.jsonl`; theorem names in `MANIFEST.json`. A claim is `partial` when the full statement is false of the code as written (the negation is then proved with a concrete witness) or when a stated part is missing.

* **C01** (Reward and cost of a transition value are always opposite, proved): All four presence combinations, exact integers for numbers.
* **C02** (Automatic casting of values between domain and solver shapes is faithful, partial): Round trip, pointwise and dictionary casts proved for all shapes. The memory-to-plain clause is false of the code (it returns the oldest element): negation proved, one-element case kept as partial.
* **C03** (Casting an outcome never changes its termination flag or loses an agent, proved): Defaults per agent and termination flag under casts.
* **C04** (Casting or sampling a discrete distribution never invents an outcome, proved): Random draw is a parameter; weights are exact integers.
* **C05** (The memory handed to the transition function is the most recent history, partial): Proved for bounded histories of order other than 1, Markovian and memoryless domains. False for unbounded history (every step raises) and for order 1 without the Markovian class: both negations proved.
* **C06** (A rollout episode is a faithful record of the run, partial): Proved for rollout with any step limit and without one; for rollout_episode only when observation and memory coincide (negation proved otherwise).
* **C07** (A rollout runs the number of episodes that was asked for, partial): Proved without a result directory; with one the code always runs a single episode (proved).
* **C08** (A solver is reported as compatible exactly when the domain has every required characteristic, proved): Class hierarchy, requirement pruning and candidate filtering; isinstance is a parameter assumed closed under bases.
* **C09** (Parallel domain calls: every request gets its own result exactly once, partial): Proved for every number of workers and every interleaving of atomic steps when callers only launch on workers that are not active (always with i=None from one thread). Asking for an active worker mixes results (C09_busy_launch_mixes), two threads in wake_up_domain can get the same worker (C09_wake_race), a job that cannot be pickled blocks its worker forever (C09_failed_send_leaks), and with the notification socket a raising call makes get_result wait forever (C09_ipc_failure_hangs). Starting and closing of processes is not modelled.
* **C10** (Shared-memory parallel domain: values of one worker never overwrite values of another, partial): Proved for arguments (all layouts with distinct types, all workers). For results the register counter grows by one instead of by the number of arrays, so two results of a multi-array type overlap (C10_results_overlap) and can spill into the next worker (C10_results_spill); proved when every multi-array type occurs at most once. The flags and conditions are not modelled.
* **C11** (Scheduling state: every task is in exactly one of remaining, ongoing, paused, complete, proved): Deterministic updates and the simulated variant with conditional tasks, any actions and draws. Python sets are duplicate-free lists.
* **C12** (Scheduling: no task starts before all its predecessors are complete, proved): Proposed starts sound and complete; along proposed actions recorded starts follow recorded ends of existing predecessors.
* **C13** (Scheduling: renewable resources are never over-used and are given back, partial): With constant needs: the amount in use is the sum of what the ongoing tasks declare, on every run in which zero-duration tasks need nothing and resumed tasks find their resources; no overuse on any proposed run when capacities do not shrink; tasks that are not ongoing hold nothing on every run. Negations with witnesses: a zero-duration task never gives its resources back; a proposed resume without resources leaves the task ongoing without resources and the next time step raises; the check for a resume raises; pausing with a non-renewable resource raises; needs varying with time overuse or raise. Availability after a time step is the drawn one for every resource.
* **C14** (Scheduling: a started non-preempted task completes exactly when its duration has elapsed, partial): Exact for drawn durations below 10000. The 0.9999 threshold completes longer tasks early (general statement and witness proved). Progress is exact rational, not float.
* **C15** (Scheduling: time never goes backwards and only advances when requested, proved): Deterministic and simulated variants.
* **C16** (Schedule-following policies only return actions the domain accepts, partial): Every method returns time progress or a start of a ready task that the domain's check accepts; for the five list-based methods the exact candidate list and the first-accepted choice are characterised (iff), with conditions under which they never raise; following any method stays within capacity. Negations: the Gantt method tries only one of the tasks scheduled now, and never starts a task whose scheduled time has passed; 'precedence ready' raises when a task that is not ready is missing from the schedule.
* **C17** (Knapsack dynamic programming returns an optimal feasible packing, partial): Optimality proved for every instance whose items are numbered by position, for every processing order and iteration limit (optimal among the processed items), and with greedy start when no item is too heavy. Outside that the code raises or (numpy variant) returns an overweight packing: negations proved.
* **C18** (Knapsack evaluation and satisfiability agree with the packing, partial): Evaluation, satisfiability, bit-flip moves, their sequences and undo, and the knapsack mutation proved. The single-bit mutation reports the old objective when totals are not cached: negation proved, cached case kept as partial.
* **C19** (Greedy knapsack returns a feasible packing with correctly reported value, partial): Complete when no item is heavier than the capacity; with a heavier item the solver always raises IndexError (proved).
* **C20** (Permutation moves keep permutations permutations, partial): Shuffle, partial shuffle, swaps, and every draw of the mutations proved. A two-opt move built with a reversed pair (i > j+1) duplicates elements: negation proved. The swap mutation raises on one-element permutations and never moves the last position (both proved).
* **C21** (Undoing a local move restores the solution, partial): Bit flip, shuffle, two-opt proved. Several swaps are undone in the same order: negation proved, disjoint swaps proved, reverse order proved to be a correct undo.
* **C22** (A result store reports the best solution it was given, partial): Proved for stores constructed with at least one solution; an empty store raises AttributeError on the first addition and an explicit best is never compared (both proved).
* **C23** (A Pareto front contains exactly the non-dominated points, proved): Front equals the non-dominated sublist (exact order and multiplicity), order independence, coverage, extreme points.
* **C24** (Multi-objective fitness comparison is Pareto dominance, proved): Fitness vectors of equal length, exact integers.
* **C25** (Local search never returns something worse than what it has seen, partial): Both directions: the store holds a solution at least as good as everything evaluated; hill climbing never worsens. The reported best is proved for maximisation only: the store is created without the direction, so when minimising the worst is reported (negation proved).
* **C26** (Serial schedule generation produces a feasible schedule whenever it claims feasibility, partial): Activities, modes, durations, precedences and renewable capacities proved for every result flagged feasible; never raises on well-formed instances; feasible when there is room. Non-renewable totals only for activities that take time: C26_instant_activities_not_charged shows the code never charges the others.
* **C27** (Serial schedule generation starts each activity as early as its priority allows, proved): Priority rule and minimality of the start against what was placed before, for every activity of every feasible result.
* **C28** (RCPSP satisfy accepts a schedule exactly when it is feasible, partial): Exact characterisation of acceptance for schedules that contain all activities (C28_accepts_iff_partial); generated schedules are accepted. The full claim fails: durations, times before 0 and after the last end are unchecked, missing activities raise KeyError, a violated total with makespan 0 raises NameError (all with witnesses).
* **C29** (Critical path method computes longest-path dates, partial): Dates, windows, criticality and existence of the critical path are proved for every well-formed network (consistent edges, acyclic, one source, one sink, at least one mode per activity). The last clause of the statement is false: with a redundant precedence the reported path can skip activities (C29_path_short); equality of its length with the makespan is proved when all edges between activities without slack are tight. `cur_node is not self.source` is modelled as inequality.
* **C30** (TSP permutation encodings convert back and forth without loss, proved): Both conversions are mutually inverse, succeed exactly on valid inputs and map permutations to permutations. The swap move leaves the stored encoding stale (C30_swap_leaves_encoding_stale).
* **C31** (TSP length bookkeeping is exact under local moves, partial): Proved for the plain evaluation, two-opt with at least one candidate, and swaps, for symmetric distances. Missing because false of the code: legs of the array evaluation (C31_np_legs_wrong, C31_np_then_swap_wrong), two-opt without candidate (C31_two_opt_no_candidate), legs of the intersection variant (C31_intersection_drops_legs).
* **C32** (Graph colouring: violations, feasibility and renumbering agree, proved): The problem accepts exactly the proper colourings, the violation count is zero exactly for accepted ones, renumbering keeps acceptance. The cached colour count is not recomputed (C32_cached_counts_stale).
* **C33** (Facility location: an accepted assignment overloads no facility, partial): As coded the capacity test of each facility overwrites the previous one: acceptance is decided by the facility opened last only (C33_accepts_iff_partial); C33_accepts_overload is the negation witness. Missing: acceptance iff all facilities are within capacity (false of the code).
* **C34** (Vehicle routing: greedy tours are disjoint, within capacity, and satisfy means a valid routing, partial): satisfy checks capacities only: unserved customers and customers served twice are accepted (C34_accepts_unserved, C34_accepts_twice). Proved: exact characterisation of acceptance, the trivial solution serves every customer once within capacity whenever it returns. Missing: acceptance iff every customer is served exactly once (false of the code).
* **C35** (Lazy A* returns an executable path to a goal, partial): Full statement proved for every domain whose start is not a goal; a start that is a goal makes the solver raise KeyError (proved).
* **C36** (Lazy A* is optimal with a consistent heuristic, proved): Consistent heuristic; an admissible but inconsistent heuristic does not suffice because expanded states are never reopened (proved by example).
* **C37** (Learning real-time A* keeps admissible values, partial): Proved for domains without cycles. With cycles both halves are false because successors already visited in the trial are skipped: a value becomes infinite although a goal is reachable, and a value decreases (both proved by example). A start at a goal raises.
* **C38** (Simple greedy picks the best immediate reward, partial): First action of largest expected reward proved when rewards depend on the next state. When they do not, the solver iterates the action space itself and always raises (proved).
* **C39** (Grid and maze moves stay inside the world, partial): Maze: proved for texts whose lines are all as long as the first; a shorter line makes stepping there raise (proved). Grid: proved for all sizes. C50 covers path costs.
* **C40** (Mastermind scoring is the classical black/white peg score, partial): Score, symmetry, all-exact, enumeration of codes and errors proved. The winning score and an all-misplaced score lie outside the declared observation space (negations proved).
* **C41** (Rock-paper-scissors is zero-sum and lasts the declared number of moves, proved): Reward table against the rules, game length, zero sum of every round played.
* **C42** (Enumerable spaces convert to indices and back without loss, proved): List and enum spaces. Indices of duplicated elements are not preserved (proved); members always are.
* **C43** (Bound constraints test the inequality they declare, proved): All four inequalities, rejection of other strings, casts.
* **C44** (Aggregated objectives are consistent between solution and dictionary evaluation, proved): All three handling modes, errors included.
* **C45** (Task duration distributions are well formed, partial): Uniform and enumerable distributions and remembering in simulated domains proved. Uncertain domains remember nothing; deterministic distribution and bounds ignore progress (negations proved).
* **C46** (Mutating a vector of modes keeps every mode valid, proved): Random choices are parameters.
* **C47** (The sorted heap of a result store starts with the best fitness, partial): The heap head is the best for maximisation, and for minimisation without a limit. Both full-content claims are false of the code: two negations proved.
* **C48** (Scheduling: the goal is reached exactly when every task that exists is complete, partial): Proved without conditional tasks, and for tasks that entered the state; false for a conditional task whose condition appears in the last step (witness proved).
* **C49** (Scheduling: a start accepted by the domain's check does start the task, proved): For every state with non-overlapping sets, every domain (constant or varying needs) and every drawn duration. For constant needs the amounts in use grow by exactly the needs of the mode and the requested units, and no other task changes.
* **C50** (Manhattan distance never overestimates on mazes and is exact on grids, proved): Maze: any text; grid: exact distance.
* **C51** (Weighted lazy A* is within its weight of the optimum, proved): no simplification beyond those of the model.
* **C52** (Learning real-time A* is optimal once its values settle, proved): Whole solver, all trials, best policy kept between trials.
* **C53** (The Pareto hill climber returns exactly the non-dominated solutions it accepted, partial): Maximisation, handler without restarts; when minimising the front is computed in the wrong direction (negation proved).
* **C54** (Robust problems aggregate scenario by scenario, proved): Methods MEAN, MIN, MAX; PONDERATION is modelled; MEDIAN and PERCENTILE are not.
* **C55** (The greedy colouring solver returns an accepted colouring with the fewest colours among its strategies, proved): networkx strategies are parameters: proper colourings or an exception.
* **C56** (TSP satisfy accepts exactly the complete tours, partial): False of the code: satisfy never answers True and rejects every tour (C56_never_true, C56_rejects_every_tour). C56_decides_partial says what it decides.
* **C57** (Continuing a partly executed RCPSP schedule keeps what has happened and schedules the rest feasibly, partial): Completed tasks kept, the rest scheduled once with durations, precedences and renewable capacities. The full claim fails: started tasks may be moved (C57_started_task_moved) and the consumption of completed tasks is forgotten (C57_consumption_forgotten).
* **C58** (The permutation read off an RCPSP schedule is a permutation of the activities in order of start, proved): For every schedule whose keys are 1..n.
* **C59** (Order of activities from the critical path method, partial): Proved when activities without duration are listed before their successors in the dictionary; without that the order can violate a precedence (C59_zero_ties).
* **C60** (First time at which an activity fits, partial): The claim is false: the function returns the last time at which the activity does NOT fit (C60_returns_last_blocked) and raises TypeError when it fits everywhere (C60_free_raises). The theorems describe the actual behaviour for all inputs.
* **C61** (Scheduling: proposed actions never raise, partial): Proved for every domain without preemptive tasks; with preemption proved when resumed tasks find their resources. Negation with a witness: in a completely described preemptive domain a sequence of proposed actions ends in a KeyError.
* **C62** (Scheduling: eager play reaches the goal, partial): Proved with an explicit bound for domains without preemption, skills or non-renewable resources, when zero-duration tasks need nothing. Negation with a witness: a zero-duration task that needs a resource blocks eager play for ever.
* **C63** (Scheduling: exactly the possible actions are proposed, partial): Pauses, resumes, time progress and the shape of all proposals are exact. Negation with a witness: a task with two feasible modes is proposed only in the last one, because the inner dictionary is overwritten.
* **C64** (C++ A*: finishes, finds a plan exactly when there is one, and reports it faithfully, proved): For a solver with an empty graph (as after clear). Finite graphs are needed only for termination. Any order of the queue will do; the library's heap is shown lawful. Disagreement beside the claim: at a state that is itself a goal the value reported is infinity (C64_goal_root_value_infinite).
* **C65** (C++ A*: optimal with a consistent heuristic, partial): Proved for a queue that always gives the node whose score is least now, and for the library's binary heap on trees. Negation with a witness for the code as written: the scores of queued nodes are changed in place, which breaks the heap order, and with the null heuristic a plan of cost 20 is returned where one of cost 19 exists (C65_library_queue_suboptimal).
* **C66** (C++ A*: solving again agrees with a fresh solver, partial): Proved only for a state that is solved already. Negations with witnesses: a second solve from another state can fail though a plan exists, can return a plan and value that are wrong and change values reported before, and can change the best action of a solved state into one that is not applicable there.
* **C67** (LRTDP values never exceed the optimal cost, partial): Proved with labels on and no call from a goal, for any draws, any number of calls and any stopping times. Negations with witnesses: without labels goals are updated like other states and values exceed the optimal cost; a first call from a goal makes that goal an ordinary state and its cost grows. Sequential execution, one rollout at a time, no online removal of nodes.
* **C68** (LRTDP labels mean what they say and are final, partial): Permanence of labels is proved without conditions on the depth. That a label means small residuals and labelled outcomes is proved when the maximal depth exceeds what the reachable states can push. Negation with a witness: reaching the maximal depth counts as passing the check, so states are labelled whose value is far from right.
* **C69** (LRTDP is near-optimal where labelled, partial): Same depth condition as C68. Bounds: epsilon times the expected number of steps without discount (when the policy reaches a goal with positive probability), epsilon/(1-discount) with discount. That labels are given eventually is not proved.
* **C70** (LRTDP never crashes and answers for the state it was asked about, partial): Proved with labels on and without dead ends; asking never crashes. Negations with witnesses: a state without actions is dereferenced as a null pointer; with labels off so is a goal without actions.
* **C71** (AO* ends with an optimal policy on finite domains without cycles, partial): Proved for calls from states that are no goals, with any order of sets, any number (at least one) of tips per round and any number of calls: a finished call defines a solution; its policy reaches a goal within finitely many steps and costs exactly the answered value, in every domain; no cost bound above the heuristic is smaller; on finite domains without cycles and dead ends the calls end. Negation with witness: an inadmissible heuristic gives a policy that is not optimal. Missing: calls from goals (see C73), the parallel execution policy, rounding of floats.
* **C72** (AO* reports cycles exactly when there are some, partial): Proved: what finished calls explored has no cycle; with detection every call ends with an answer or the report; when every policy may return to the start, the call never ends without detection and is reported with it; in layered domains with one tip per round detection changes nothing. Negations with witnesses: a mere shortcut, or two tips per round in a layered domain, is reported as a cycle.
* **C73** (AO* does not crash, partial): Proved: when every state can surely be left by some action, the report of a cycle is the only error. Negations: a state without actions, or one whose actions may all stay in it, dereferences a null pointer (also with detection) and no state leading surely there is answered; a call from a goal stores it with infinite value, after which a state that leads to it crashes; no tips per round hangs.
* **C74** (IW ends without crashing and tells an executable plan, partial): Proved for the default time budget and non-negative costs, any ordering, from a start that is no goal. Negations with witnesses: a negative cost lets the walk back to the root run forever; with time left and another ordering the best action of the root can be inapplicable; solving from a second state without clearing dereferences a null pointer. A goal as start gets no solution and an infinite value, and plans need not be cheapest.
* **C75** (IW gives up only when there is no plan, proved): Non-negative costs, default time budget. Witnesses that the hypotheses are needed: states that look alike, no features at all, a start with fewer features than other states.
* **C76** (Novelty is the size of the smallest new tuple, and problems of small width are solved, partial): Proved: enumeration, novelty, one width per call; the guarantee for unit costs, the default ordering and a queue that always gives a node of least score, for width 1 also with the queue of the library. Missing: the queue of the library (whose entries change their scores) for larger widths.
* **C77** (BFWS finds a plan exactly when there is one, and tells it faithfully, partial): Proved for a fresh solver and a start that is no goal, for any costs (negative ones too), heuristic, features and queue. Negations with witnesses: solving from a second state without clearing dereferences a null pointer; a goal as start gets no solution and an infinite value. Plans need not be cheapest.
* **C78** (BFWS follows a heuristic that can always be lowered straight to a goal, proved): With the queue of the library. A witness shows that without the hypothesis the solver can run forever next to a goal.
* **C79** (BFWS novelty counts the features new for the heuristic value, partial): The measure is proved for every history. Expansion in order of novelty is refuted: a node generated twice has its novelty changed while it lies in the heap. Also, more new features rank a node later, against the comment in the code.
* **C80** (ILAO* values never exceed the optimal cost, partial): Proved for all sequences of calls from states that are no goals, for any bound on the costs that some policy attains. Negation with a witness: a call from a goal makes it an ordinary state, and later values are too high.
* **C81** (ILAO* returns a complete near-optimal policy, partial): Proved for domains without dead ends: an applicable action, consistency of the value at the start up to discount times epsilon, and actions up to states that carry the label solved. Negations with witnesses: the value 63/25 is reported and a policy of cost 9 followed although 3 is optimal; the policy told leads to a state without an action, behind a state labelled solved.
* **C82** (ILAO* does not crash or hang, partial): No exception if every state that is no goal has an action. Negations: a dead end behind another state dereferences a null pointer; a dead end as start, and any epsilon that is not positive, never return.
* **C83** (Greedy pile schedules are feasible, proved): For every rule, draw and order of sets, given a source without predecessors, duration and needs, and needs and capacities that are not negative.
* **C84** (The pile solver ends, solves every solvable project and never waits for nothing, partial): Ending, success, IndexError for infeasible projects and no idle waiting are proved. The rule is followed only up to simultaneous ends: negation with a witness where two activities end together.
* **C85** (The executor turns a priority list into a feasible schedule, partial): Feasibility, success and rejection of incomplete lists are proved. Negations: the list is not followed when two activities end together; the reported modes are shifted by one activity; the list of the caller is emptied, so a second call with it raises ValueError.
* **C86** (The calendar pile solver keeps the calendars, partial): Everything but the non-renewable resources is proved for every calendar, rule, draw and order of sets; also that nothing runs beyond the 100 times added to the calendar. Negation: non-renewable resources are booked only while an activity runs (the second table is written but never read).
* **C87** (The calendar pile solver ends, solves every solvable project and never waits for nothing, partial): Proved: a solution after at most n_jobs + 3 rounds if no cycle, every activity fits alone at all times and the durations sum to less than the calendar plus 100; IndexError is the only exception. Negations: IndexError on a long activity, waiting for ever though a schedule exists, idle waiting for the end of another activity, one time too many demanded.
* **C88** (MCTS returns and answers with an applicable action, partial): All parts are proved; that solve does not fail under the assumption that every state, terminal or not, has an applicable action and every applicable action a next state. Negation: a goal without actions one step from the root makes every solve with max_depth of at least two throw, for all draws, since the simulation does not look whether its first state is terminal.
* **C89** (MCTS values stay within the discounted rewards, and rollouts are counted, partial): The discounted bound and the counts (at least one per rollout) are proved for all runs and sequences of calls. Negation: in a cycle a rollout is counted more than once and the value exceeds all that can be earned within max_depth steps (the graph is backed up through the cycle).
* **C90** (MCTS tries every action, any number of times, proved): For any bonus that eventually forces rarely tried actions; the bonus of the code over the reals is shown to be one for every positive constant.
* **C91** (MCTS chooses rightly one step before the end, partial): Proved for search depth one, and for terminal states beyond which nothing is paid. Negation: if a step beyond a terminal state costs more than was earned, the best action is the wrong one for every number of rollouts, all draws and all bonuses.
* **C92** (Multi-skill schedules keep the project, partial): Activities, modes, durations, precedences, renewable resources, priority and earliest start are proved for complete schedules, and that generation never raises on well-formed instances. Non-renewable resources only for activities that take time (the others are never charged, with witness). Negation: an activity that would end exactly at the horizon is never placed, whatever the horizon multiplier, although the check accepts such a schedule. A cycle raises KeyError, a skill needed by the sink IndexError.
* **C93** (Multi-skill schedules are staffed, partial): Presence, one place at a time and noted skills for all lists; levels, and one worker per activity, for lists that name every worker. Negations: with a worker named twice or ranks in place of workers activities are placed without the workers they need; a worker without any needed skill is blocked without being noted, which delays another activity.
* **C94** (The check accepts exactly the feasible multi-skill schedules, partial): Exact characterisation of acceptance for solutions with all activities and their modes; generated schedules are accepted when capacities are constant, modes exist and lists name every worker. Negations: durations, the limit of one worker and resources after the end of the sink are not checked; missing workers and corrected modes make the check raise KeyError; activities without duration get busy workers and are then rejected.
* **C95** (The left shift keeps a multi-skill schedule valid and loses nothing, partial): All parts for every valid schedule, except that the check still accepts only in problems without resources where activities with workers take time and workers are noted with the skills they give. Negations: resources are not looked at, so a shifted schedule can use more machines than there are; an activity without duration is moved to a time at which its worker is busy.
* **C96** (Generating a schedule from the order of a feasible one loses nothing, partial): Both parts for well-formed projects without negative requirements, when nothing starts before the source or after the sink (and, for the second part, non-renewable capacities are constant; without any resource, nothing ends after the horizon). Negation: without the frame the sink, which is always placed last, can become later.
* **C97** (Encodings describe multi-skill solutions faithfully, partial): Encodings of complete solutions, regeneration without exception and its acceptance (under the conditions of C94), evaluation of orders and modes, fixed attributes, ranks as workers when these are numbered 1 to n, copies without the limit of one worker. Negations: the new schedule can be longer, or incomplete when the old one ends at the horizon; with other worker numbers nobody is assigned; five registered encodings raise UnboundLocalError; fixing modes counted from 0 fixes the next modes; copies and variants lose the limit of one worker per activity.
* **C98** (Skills as resources relax a multi-skill project, partial): Rows at all times (at the last one if no calendar is longer than the row), kept modes, durations, resources and precedences, and acceptance of accepted solutions. Negations: calendars longer than the row add all remaining days to its last position, and overloads are accepted there; the converse fails, one worker with two skills counts twice; a skill unknown to the project raises KeyError and empty rows IndexError; with rows of different lengths the result depends on which resource comes first in a set.
* **C99** (Using a domain follows what it declares, partial): Proved for Markovian, memoryless and bounded histories of order other than 1 (soundness, completeness, sampling), and for deterministic fully observable Markovian domains with the exact run. Negations: with unbounded history every step raises; with bounded histories steps change the memory object of the caller, so later episodes of a rollout start elsewhere.
* **C100** (Tests of actions and goals agree with the declared spaces, partial): Proved for one agent, for joint actions that name exactly the agents, and for the random walker. Negations: agents left out are not missed (nothing at all is accepted), strangers raise KeyError, is_action always raises with several agents, and is_enabled_event always raises in domains with actions only, because the empty space has no contains.
* **C101** (Cached characteristics are constant, partial): Constant methods are always answered rightly; other methods give the first answer as long as fewer than 128 other domains ask in between. Negation: after 128 other domains the method is asked anew, so a drawn initial state changes.
* **C102** (Following a feasible plan with the Gantt method replays it exactly, partial): Proved with renewable and other resources, several modes and plans that are not eager, for constant needs without skills, units and conditional tasks, durations below 10000 (longer tasks complete early, see C14), and tasks of duration zero that need nothing. Negations: a task of duration zero with needs keeps its resources and the plan is not replayed; the methods that follow the order of a plan can end later than the plan although everything is as planned.
* **C103** (The termination test on non-renewable resources, partial): Proved for proposed runs without preemption with constant needs; loss of the goal when the amounts do not grow. Negations: two tasks that together need too much pass the test though the goal is out of reach; varying needs raise AttributeError; a task without modes raises NameError or passes with the answer of the task before.
* **C104** (Methods that follow a list always finish, partial): Proved when every task alone fits the capacities in the chosen mode and tasks of duration zero need nothing, for non-negative freedoms. Negations: the Gantt method never finishes once a task is late; negative freedoms never start anything; tasks left out of the permutation are never started.
* **C105** (Domains and problems made from each other describe the same project, partial): Both directions and the round trip for projects without skills whose tasks are numbered 1 to n and whose modes list every resource, for schedules whose last task ends last (the check does not look further). Negations: the horizon multiplier is lost on the way to the domain; a calendar becomes its maximum; a need that a mode does not mention is zero in the domain and a KeyError in the problem.
* **C106** (Solving a domain through the binding and running the result, partial): Proved for projects without skills whose tasks are numbered 1 to n, with tasks of no duration that need nothing and durations below 10000 (see C102); without any resource the schedule has to end before the horizon. Negation: with tasks numbered from 0 both sides are built without complaint and the domain can be run, but schedule generation raises KeyError.
* **C107** (Random durations for a project, and projects drawn from it, partial): Values, probabilities and mean of the noise (the mean is the given duration exactly above 10, and longer below), the stochastic project, each project drawn, every combination possible, and feasible plans carried over (both ways when all resources are renewable). Negation: resources that are not renewable become renewable in the stochastic project and in everything drawn from it, so a schedule that the given project refuses is accepted.
* **C108** (The linear program of the colouring solver, partial): Soundness, completeness and optimality for graphs numbered from 0 on; the library is the meaning of the program (exact integers, any feasible or best assignment). Negation: rows are built for the positions 0..n-1 while the variables are named after the nodes, so for every graph not numbered from 0 on building the program raises KeyError.
* **C109** (The linear program of the facility solvers, partial): Soundness and completeness for every pruning; optimality among the assignments the pruning allows (setup costs and capacities not negative), over all assignments when nothing is pruned. Negation: the pruning (n cheapest facilities, and for each customer the n closest) can leave a program with no feasible assignment although the problem has one.
* **C110** (The linear program of the knapsack solvers, partial): Proved for items listed by increasing index (the neighbourhood search: numbered by position). Negation: list_taken is in the order of the indices while the problem reads it by position, so for other lists the result of the best assignment can break the capacity and misreport its value.
* **C111** (The linear program for projects with one mode, partial): Soundness, completeness and optimality for constant capacities of renewable resources. Negations: non-renewable resources are treated as renewable, so the schedule read can be rejected by the check of the problem; with any partial solution building the program raises (AttributeError for start_at_end, which no partial solution has).
* **C112** (The linear program for projects with several modes, partial): Building, soundness, completeness and the kept start times and orders for every project; optimality over all plans when every task precedes the last one. Negations: with an infeasible start solution the times end before the sum of the longest durations, where the last task of a sequential project has to start, so the program of a project with a plan has no feasible assignment; modes and end times of a partial solution are not read.
* **C113** (The iterative linear program for the travelling salesman, partial): All parts for symmetric distances; that tours stay feasible, the optimum and the end of the loop need different start and end or two inner nodes. Negations: out and back between two nodes is a tour but the program has no solution; on a graph of the user without a tour the solver raises a TypeError while joining; when points coincide the complete graph can lack an edge. Without inner nodes init_model raises IndexError.
* **C114** (Exploring a deterministic domain, partial): The depth-first explorer and merging as stated. Negations: with the default limits exploring always raises TypeError; without a reachable goal the limits on nodes and edges do nothing and counting up never ends; the explorer of the full space only expands the start; the domain made of a graph has no goals and asking for a cost raises KeyError because the weight has no name.
* **C115** (Exploring an uncertain domain, partial): As stated. Negation: what is recorded is a tree, each state led to by exactly one transition; transitions back to the same state, to the start or to any known state are lost, so probabilities do not add up to one, an action may have no outcome left and drawing one raises IndexError. With the default limits exploring raises TypeError unless the start is a goal or terminal.
* **C116** (Large neighbourhood search with a linear program, partial): As stated. Negations: iterations that are worse than the best are not counted, so no patience ends such a search; when maximising with the first iteration skipped nothing is ever counted (the infinite start value has the wrong sign); skipping the first iteration raises KeyError with handlers that read their own key. The solver is any function of the iteration and of the constraints present.
* **C117** (Large neighbourhood search with a constraint solver, partial): As stated; the part on patience for checks problem.satisfy that do not raise. Negations: a check that raises makes improving iterations count as failed ones; a skipped first iteration without a result raises AttributeError in the next one.
* **C118** (Neighbourhoods of the searches for facilities and colourings, partial): As stated. Negations: a customer drawn whose pair is pruned, or a node drawn whose colour is not the highest and not below the number of colours of the program (its greedy start), makes the restricted program infeasible although problem and incumbent are fine. Error branches: too short incumbents, no colours. The MIP start is left out.
* **C119** (Neighbourhoods of the searches for projects, partial): As stated; with one mode for constant capacities and renewable resources (see C111). Negations: when the last task is drawn by the fixed-start handler every answer has the makespan of the incumbent, so nothing can improve; when the incumbent is longer than the greedy start of the solver, whose makespan ends the times of the program, a task drawn beyond them makes the restricted program infeasible. An incumbent without a schedule raises KeyError or ValueError.
* **C120** (Graph and answers of the solver RIW, partial): As stated. Negation: an answer lowers the depth of the state it was asked for from zero to the largest size_t. Sequential policy, no garbage collection of nodes (the default).
* **C121** (Novelty tests and stopping of RIW, partial): As stated, for clocks that do not go back. Negations: known states reached with lower depth are pruned though the comment says otherwise; a width returns true though states were pruned and budgets are left, and a better plan is lost; a state without actions that is not terminal throws; on a circle the first rollout never ends, whatever max_depth; a second edge to a solved state sets its value to zero, so that the value of the start is wrong.
* **C122** (RIW returns on domains without circles, partial): As stated. Negation: with paths longer than max_depth the backup stops before the start, and the next rollout throws.
* **C123** (RIW is optimal on trees without pruning, partial): As stated. Negations: with max_depth below the height of the tree, or with a rollout budget that is consumed, the answer is the worse action. That pruning and second edges to a state (no tree) lose the optimum is C121.
* **C124** (construct_dict_policy collects exactly what the policy reaches, partial): As stated, with is_terminal, the policy and the distributions as functions of the state. Negation: a listed outcome of probability zero makes the evaluation of a good policy raise AssertionError.
* **C125** (expected_costs_for_policy computes the expected costs, partial): As stated. Negations: with a loop of the policy the start has no value though the goal is reached with probability 1 and the expected cost is 2; an initial state that is a goal has no value if it is terminal, and the value 7 if it is not.
* **C126** (Rollout estimates are averages over all visits, partial): As stated. Negation: the penalty of 1000 for rollouts that end elsewhere than in a goal is not used by the estimation, so a policy that never reaches the goal gets the better value.
* **C127** (MetaPolicy follows the policy with the least simulated time, partial): As stated, with the results of rollout_episode as oracle and episodes that begin with the action of their policy. Negation: nb_rollout_estimation = 0 gives KeyError when policies disagree.
* **C128** (Evaluation of the travelling thief problem, partial): As stated, with exact numbers and distances as a function of the cities. Negations: beyond the capacity (which nothing checks; satisfy is always true) the speed becomes negative and the objective exceeds the profit, or the evaluation divides by zero; an item is taken in a city where it is not; a city left twice gives its items twice.
* **C129** (Mutations of the travelling thief problem, partial): As stated. Negations: answers note weight 0, so that two mutations in a row exceed the capacity; with nothing taken and nothing that fits the two switches recur until the recursion limit; MutationTTPKnapsackBest and Mutation2Opt compare or subtract dictionaries and numbers and so raise TypeError whenever there is something to try, the former leaving the given packing changed; the default nb_test = 1000 raises ValueError up to 1000 cities.
* **C130** (Search tree and answers of POMCP, partial): As stated; numbers are exact, the square root of the UCT formula is a parameter. Negations: with positive costs an action that was never tried counts as free and is preferred to all that were tried, so that with few iterations the answer ignores an action known to reach the goal; if no goal is observed the answers are untried actions or None.
* **C131** (Belief and errors of POMCP, partial): As stated, for random.choices of Python 3.9 and later. Negations: a goal that costs more than twice the depth bound makes the search raise AssertionError or answer None; with depth bound 0 any two iterations raise; the belief is compared with the observation before the last action is applied, against the documented meaning of observations, so that a domain showing its state raises ValueError at the second observation.
* **C132** (Interval features of Gym states (BEE1 and BEE2), partial): As stated, with exact numbers. Negations: the finer features depend on the history (the same state evaluated twice gets different features); spaces with a Discrete, MultiDiscrete or MultiBinary part, or a dictionary with keys, raise RuntimeError or ValueError at the first call, although the later code handles them.
* **C133** (Bit vectors of Gym states, partial): Holds without dictionaries, without boxes that have no cells and without the cell value -0.0. Negations: -0.0 takes 33 bits, which shifts all later features; a dictionary with keys always raises. nb_of_binary_features passes four arguments to a method of two and always raises TypeError (read off the source, not modelled).
* **C134** (Equality of Gym state proxies, partial): As stated. Negation: states of different structure or with different keys may have equal proxies.
* **C135** (Discretized Gym actions, partial): As stated. Negations: for a box of one dimension with several cells only the first item of each action is written, the others are uninitialised; boxes of other dimensions and MultiBinary raise TypeError; Dict gives None, AttributeError within a tuple; empty vectors and tuples raise IndexError; with factor 1 the only action is NaN.
* **C136** (Gym environments as deterministic planning domains, partial): As stated. Negation: the transition value is that of the last transition stored in the next state, whatever memory and action are given; without next state, or with the initial one, it raises AttributeError.
* **C137** (Depth, goals and accumulated reward of Gym planning domains, partial): Depth and goals as stated. Negations: the accumulated reward leaves out the last transition; with a MultiDiscrete observation space every call for a successor raises RuntimeError.
* **C138** (Reset of initialized Gym domains, partial): Resets as stated. Negation: after set_memory with a state returned by a step, the environment is in the initial state, with copies and with set_state.
* **C139** (Domains as Gym environments, partial): Steps with unwrapped spaces as stated. Negations: reset does not unwrap the observation; with unwrap_spaces=False step still converts the action.
* **C140** (Running Cartesian genetic programs, partial): As stated. Negations: the first run of a deeper program shows other values and depends on earlier inputs; with backward connections needed nodes are never evaluated; connections outside raise IndexError.
* **C141** (Genomes of Cartesian genetic programs, partial): random as stated (ValueError without inputs); mutations with one row. Negations: with several rows mutate leaves the graph or raises ValueError, mutate_per_gene makes nodes their own arguments or raises; programs that have run ignore changes of their genome; clones forget the recurrency distance.
* **C142** (Evolution strategy of the CGP solver, partial): As stated. Negations: no offsprings raise ValueError; with several rows the evolution can raise; the rewards are not sorted before they are weighted; no episode raises ZeroDivisionError.
* **C143** (Observations and actions of the CGP solver, partial): Bounded boxes and at least two choices as stated. Negations: one choice raises ZeroDivisionError; unbounded cells lose observations and make infinite actions; tuples with boxes of several cells have too few outputs; the check of the domain looks at the last part only.
* **C144** (Schedules of the critical path solver along an order, proved): As stated, for constant availability and calendars, cut by the critical path or not.
* **C145** (Completeness of the critical path solver along an order, partial): As stated. Negations: an activity that needs more than there is raises StopIteration or KeyError; an activity whose earliest date is beyond the horizon is left out silently; a short horizon raises IndexError.
* **C146** (Schedules of the critical path solver along time, partial): As stated. Negations: activities that fit together start one after the other; calendars that drop later are overdrawn (only the first time is checked); with ten waiting activities first in the order the loop never ends.
* **C147** (Answers of the greedy scheduling policy, partial): As stated, and it answers in every reachable state when all tasks have a mode 1. Negation: a ready task without a mode named 1 raises KeyError though the domain offers its start.
* **C148** (The greedy scheduling policy finishes, partial): As stated for tasks that fit in mode 1; tasks that draw duration zero must need nothing. Negation: a task that fits only in another mode is never started.
* **C149** (The greedy solver maximises the immediate reward, partial): As stated when rewards depend on the next state; ValueError exactly when no action is applicable. Negation: when the domain declares that rewards do not depend on the next state, every call raises TypeError, since the code iterates over the space instead of its elements.
* **C150** (Rankings of evolved heuristics, proved): As stated; the ranking is the only list with these properties. Also: negating a heuristic without ties turns its ranking round.
* **C151** (Pools of heuristics, partial): As stated when fewer values are removed than there are heuristics. Negations: the random pool always raises TypeError (randint with one argument); removing all values gives not a number, removing more raises IndexError.
* **C152** (Resource features of tasks, partial): As stated. Negations: a capacity of zero at any time of the duration raises ZeroDivisionError even without need; a task that takes time without naming resources gives not a number or exceptions.
* **C153** (Fitness against a reference permutation, partial): As stated for at least two tasks. Negation: Kendall's coefficient compares permutations as number sequences, not the places of tasks, so exchanging two neighbours can be the worst and turning the order round better.
* **C154** (Playing evolved heuristics, partial): As stated for tasks numbered 1 to n that fit in mode 1 (priority for the method ready, finishing for the five list methods; the schedule of the serial scheme is arbitrary but complete). Negation: with tasks numbered from 0, positions are taken for numbers and task 0 never starts.
* **C155** (Solutions of the multi-skill program, partial): As stated, and the program can be built, when modes list all resources, the sink takes no time, modes that need skills take time, non-renewable capacities are constant and calendars are long enough. Negations: a worker may do a task without duration during another task (the check rejects this); the limit of one worker per task is ignored; a calendar as long as the horizon raises IndexError although a schedule can be generated.
* **C156** (Completeness and optimality of the multi-skill program, partial): As stated for schedules that start in time and note each worker for one needed skill per task, with the sink numbered last. Negation: a worker with two skills that one task needs is not used for both, so the program has no solution although the check accepts a schedule.
* **C157** (Answers of the hindsight planner, partial): The call never raises with a scenario, its answer starts a plan, unanimous scenarios are followed and asking again at once changes nothing: all runs. Least weighted cost: when states carry their depth, actions lead to different states and calls go along increasing depth. Negations: an action that stays at the state, or two actions with the same next state, make a plan count twice and the answer wrong.
* **C158** (The hindsight planner without kept plans, partial): Least weighted cost among the first actions of the plans at the first call at each state, for all domains. Negations: asking again at the same state adds the plans to the old values and changes the answer; an action that starts no plan is not considered even when it is the best of all.
* **C159** (Time windows and time lags, partial): The constructors and defaults for all values. Negations: a lag with only a least time cannot be made (the horizon is asked from the lag); windows are not enforced (the filter is commented out), an accepted run starts a task before its window.
* **C160** (Values of scheduling transitions, partial): Makespan: all runs. Costs: the exact sum when every resource is renewable, has a price and a used amount; nothing without mode and resource costs. Negations: with a resource that is used up every transition value raises; resources are charged for actions that let no time pass; a rejected start is charged for its mode.
* **C161** (Distributions of next states in scheduling, partial): Outcomes: exactly those of the simulation, whenever the distribution exists. An accepted start keeps the probabilities of the durations. Sum one: for actions that do not both start a task and let time pass, in domains where a task sets conditions by one distribution. Negations: starting and letting time pass loses the probabilities of the durations; two distributions of one task are merged to one of sum 2 without joint outcomes; an empty list of conditions raises.
* **C162** (Enumerated actions with resource units, partial): The enumeration is characterised exactly, and starts of tasks not started before are accepted. Negations: for paused tasks START actions are enumerated, which raise IndexError; no RESUME is ever enumerated, so a paused task stays paused in every run and the goal is not reached.
* **C163** (Sampled actions with resource units, partial): Teams, acceptance, over-use and the absence of teams: all domains with skill levels not below zero, all draws. Negation: a sampled resume uses the last mode that fits, with the units of that mode, while the task keeps the mode it was started in.
* **C164** (Reading instance files, partial): Round trip for all five formats and all spacings, numbers exact. Negations: blank lines are not skipped (IndexError); a second word on the first line of a travelling salesman file raises; edges may name nodes that do not exist.
* **C165** (Reading PSPLIB files, partial): Round trip for every instance with distinct resource names; missing sections. Negations: a mode line with one word too many is silently taken for another task; two resources of the same name shift all numbers; the announced number of modes is not checked.
* **C166** (Reading travelling thief files, partial): Round trip for every instance in the order of the published files; exceptions. Negations: the number of a node is ignored, so reordered lines move the items; missing words or lines give nodes at the origin without exception.
* **C167** (Augmented random search, partial): Solving, the update of the policy and the rewards of episodes for every domain. Negations: asking for small rewards does not minimise (same policy as asking for large ones when all directions are used); the last policy need not be the best seen; observations from boxes of several dimensions raise. The normalizer is made but never used by the solver, so states are not normalised by it (not a theorem: it does not occur in the model).
* **C168** (Running statistics of observations, proved): Sums in exact numbers; the square root is a parameter with its defining equation at the values used.
* **C169** (Encodings of the genetic algorithm, partial): Encodings by name, individuals, mutation. Negations: unknown names and incomplete dictionaries silently use the first encoding; a custom list of numbers of values raises KeyError; mutation gives values that the place does not have; it raises AttributeError for booleans and permutations. The operators of deap are described from its documentation; crossovers are not modelled.
* **C170** (Fitness and run of the genetic algorithm, partial): Fitness, best solution, evaluations, tournaments. Negations: the solver cannot be made without objectives (its default); weights are ignored for a single objective, so makespans are maximised; an objective given as a string is read by letters; several objectives raise NameError; the limit of evaluations is exceeded; populations of less than five raise ValueError.
* **C171** (Alternating between encodings, partial): Number of runs and solution returned. Negations: there is no alternation, only the first encoding is evolved; the best run may be forgotten; runs of no evaluations never end.
* **C172** (The class Graph, partial): Neighbours, attributes, nodes, ancestors and the four maps for all graphs. Negations: an edge may name nodes that get_nodes lacks; networkx merges attributes of repeated nodes and edges where the class replaces them; given both directions of an undirected edge, the attributes of the first are lost; predecessors_map raises AttributeError for undirected graphs. check_loop is not modelled.
* **C173** (Precedence graphs of projects, proved): Both graphs for all projects, with their exceptions.
* **C174** (Consumption of resources over time, partial): Both views, their relation, exceptions, the usage of satisfy, the merged curve and differences of starting times. Negation: the time axis ends with the activity of the largest number, later consumption is cut off.
* **C175** (Schedules of the units of each resource, partial): For schedules with constant capacities, activity numbers up to 100000 and an activity that starts and ends at 0. Negations: without such an activity KeyError may be raised; schedules that require too much leave activities with fewer units, silently; with calendars units work while off duty. activity_last_n_hours and the boxes for plots are not modelled.
* **C176** (Projects with helper tasks, partial): Precedences, modes, resources, maps and exceptions (too many assisted activities, plain projects) for all projects and draws. Negations: the project given is changed (its resources are shared) so that its own schedule generation raises KeyError; the horizon is not multiplied; numbers that do not follow the precedences lead to cycles; helpers may start before the source; the name of the new resource may be taken.
* **C177** (Correction of schedules with helpers, partial): Each move, the whole correction, the gap and the exceptions (helper not scheduled, helper without successors). Negation: helpers do not all end as late as possible, and evaluating a solution twice gives two gaps. Calendars (TypeError) are outside the hypotheses; makespan and reserve of evaluate are those of the base class.
* **C178** (One project for many instances, partial): Entries, bounds, existence, validity in worst and best case, exceptions. Negations: schedules generated for the project of largest values may be shorter than those of an instance; weighted aggregations and cut values; the training set without test instances.
* **C179** (Laws of uncertain projects, partial): Every law of tidy projects (no resource called duration) for all ranges and switches. Negations: activities without duration get laws that do not contain it; calendars raise TypeError.
* **C180** (Projects made of laws, partial): Probabilities, details, worst case, percentiles (quantile, monotone), average of equally probable values. Negations: percentiles turn requirements of 0 into 1, so that projects become infeasible; the average of generated laws is not the base project; best cases may be longer than the base project; Poisson laws of mean 0 raise ValueError. The mean of cut Poisson laws is bounded only by the law; floating point is not modelled.
* **C181** (Constraint program of single-mode projects, partial): Soundness of the program and completeness for schedules starting before the sum of the durations (with zero-duration activities requiring nothing) are proved; that every schedule solves the program is refuted by a chain of activities (no solution at all) and by a milestone with requirements (optimum 4 for a makespan of 3).  Exceptions proved.
* **C182** (Constraint program of multi-mode projects, partial): Soundness with retrieval and completeness are proved (activities without duration require nothing, as the redundant constraints keep them off others); the shift of modes by a source with several modes is refuted with KeyError as witness.  Not modelled: calendars, partial solutions.
* **C183** (Constraint programs of knapsacks, partial): Proved for items numbered by position (each index is the position); refuted for other orders by a concrete pair of items, with the exceptions.  Not modelled: time limits, intermediate solutions, the recorded results.
* **C184** (Constraint program of facility location, partial): Soundness and completeness for all problems over whole numbers; equality of objective and cost, optimality and the neighbourhood search for positive demands; refuted for demands of zero, for numbers cut off and for an overloaded start.  Not modelled: time limits, the search annotation, the random choice of the fixed customers (a parameter).
* **C185** (Constraint programs of graph colouring, partial): Proved for undirected graphs whose edges are listed once; directed graphs, repeated edges and the program with cliques on small graphs are refuted.  Not modelled: time limits, search annotations, networkx (its cliques are a parameter), the random choice of the fixed nodes (a parameter).
* **C186** (Constraint programs of tours, partial): Soundness for all symmetric problems with a node to visit, completeness and optimality for distances of at least 0; the program over integers is optimal only up to its gap.  Refuted for cut off distances, negative distances and problems without inner nodes.  Distances are exact numbers, multiples of a unit.  Not modelled: time limits, search annotations.
* **C187** (Constraint program choosing modes, partial): Soundness and completeness for all projects whose modes are numbered 1, 2, ... in the order of their dictionaries and whose first and last activity have mode 1 only; refuted (both ways) for other orders.  Not modelled: partial solutions, time limits, search annotations.
* **C188** (Neighbourhoods of the constraint programs of projects, partial): All proved for exact numbers; the two disagreements are witnessed.  Not modelled: rounding of floats, the refusal of newer versions of Python to sample from the keys of a dictionary, LNS_CP_RCPSP_SOLVER (its search is C117).
* **C189** (Breaks of a calendar and the cuts for them, partial): All proved for starts and ends of at least 0; refuted for modes other than 1 and for times beyond the calendar.  The repaired solution is any schedule.  Not modelled: the capacity strings added for single breaks (with draws), the search around (as C117), check_solution for partial solutions, which is never reached.
* **C190** (Learning from an expert (MaxentIRL), partial): Proved for observations below the upper bounds, refuted at the bounds; loss of epochs, the unused expert, boxes and the missing file are refutations.  Numbers are exact, the world and the first weights parameters; tuples of spaces, files, plots, and process_stable_baselines_npz_trajs (never called) are not modelled.
* **C191** (Constraint program of vehicle routing, partial): Proved for the program and its data; refuted for distances that are no whole numbers.  The model starts from the program: importing vrp_cp.py raises as things stand, since vrp/solver_toolbox.py is empty.  Loads below 0 are excluded by the program and by the specification.  Not modelled: time limits, statuses, the draw of neighbourhoods (any set).
* **C192** (Comparison of result stores, partial): Proved for all stores with fitness vectors of one length; refuted for equal names, weights, stores to minimise, stores listed twice and attributes of different lengths.  Not modelled: plots and prints, numpy broadcasting.
* **C193** (Solution files of multi-skill projects, partial): Proved for all solutions with distinct original numbers and for all known tasks and workers; refuted for several workers, tasks without workers and problems whose workers are numbers.  Not modelled: opening and closing files.
* **C194** (Reading multi-skill projects, partial): Proved for all files that describe a project; refuted for misplaced levels and a missing separator.  Not modelled: the calendars of workers, which are all true, and the resources, of which there are none.
* **C195** (Tools of tours, partial): Proved for points that do not coincide or orders by number; refuted for other orders and for the nearest node.  np.argsort promises no order of equal distances; numbers of 32 bits may overflow, which is not modelled.  build_matrice_distance and the parser of points (C164) are not part of this claim.
* **C196** (Tools of vehicle routing, partial): Proved for all distances, routes that begin at the depot and tours for all vehicles; refuted for equal places, pruned distances below 1, other routes and missing tours.  The text of the objective and the order of equal distances are parameters; np.int is taken as int.
* **C197** (Tours and vehicle routing with a routing library, partial): Proved for all assignments that meet what the library promises (each vehicle goes from its start to its end, every index that is no end is passed once, the demands of the nodes left fit) and all distances; refuted for demands at ends, distances of tours that are not whole and 1000 nodes or more.  The search of the library is not modelled; np.int is taken as int.
* **C198** (Neighbourhoods of the program for multi-skill projects, partial): Proved for all plans of the program of C155 and C156 and all drawn tasks; the handler that fixes starts is refuted for all plans.  Draws and the best solution are parameters; the removal of rows is the library's.
* **C199** (Tables of project solvers, partial): Proved for all tables and classes; refuted for general and derived classes and solvers listed twice.  Classes are names; solve and return_solver are not modelled.
* **C200** (Program giving individuals to activities, partial): Proved sound without condition and complete for activities that take time; refuted for activities of no length.  The cliques of networkx are a parameter that contains every pair of activities that meet; the random objective, LP_MRCPSP_GANTT.retrieve_solutions (it returns nothing) are not modelled.
* **C201** (Additions to the program giving individuals to activities, partial): Proved for activities that do not contain the interval with both ends; refuted for the others, for duties of individuals who are not free and for entries to be ignored.  init_model of this class is that of C200; names of constraints, the pool of solutions of Gurobi and solve are not modelled.
* **C202** (Default functions of genetic programs, partial): Proved over the real numbers for the whole default library; refuted for inv.  Errors of rounding of floats, by which a value may leave the range, are not modelled.
* **C203** (Loading multi-skill projects, partial): Proved for all projects with distinct names; refuted for calendars, later availabilities and equal names.  The reading of the file is C194; the items passed on unchanged and load_domain are not modelled.
* **C204** (Portfolios of mutations, partial): Proved for all weights of which none is negative and some positive, and for the cases that raise; refuted for negative weights.  Weights are exact; the check of numpy that probabilities sum to 1 up to rounding always holds then and is left out.  mutate_and_compute_obj chooses in the same way.  The first value of get_available_mutations, the mutations themselves and PermutationMutationRCPSP are not modelled here.
* **C205** (Mutations of project solutions, partial): Proved for all solutions that have a schedule and all ways of generating schedules; refuted, whenever objectives or permutations differ, for new modes, stored permutations, swallowed errors and copies.  Schedule generation is C26 and C27, the permutation of a schedule C58, the other mutations C20 and C46; local moves are not modelled here.

## Axioms per theorem

Output of `#print axioms` for every theorem of the manifest, grouped (prefix `Verif.` omitted).

**propext** (74): `CalBreaks.C189_beyond_refuted`, `CalBreaks.C189_cut_void_refuted`, `CalBreaks.C189_modes_refuted`, `Cgp.C141_cached_refuted`, `Comparator.C192_names_refuted`, `Core.C02_memory_to_plain_not_latest`, `Core.C02_memory_to_plain_partial`, `Core.C03_cast_keeps_termination`, `Core.C04_cast_single`, `Core.C04_sample_never_invents`, `Core.C43_bad_inequality_rejected`, `CpKnapsack.C183_order_refuted`, `Defaults.C100_before_reset`, `Defaults.C100_events_refuted`, `Defaults.C100_single`, `Defaults.C100_unrestricted`, `Defaults.C101_constant`, `Defaults.C101_evicted_refuted`, `Domain.C05_memoryless`, `Facility.C33_greedy_gives_up`, `Ga.C169_booleans_refuted`, `Ga.C169_name`, `Ga.C169_unknown_refuted`, `Ga.C171_best_refuted`, `Ga.C171_endless_refuted`, `GraphApi.C172_reverse_refuted`, `GymEnv.C137_same`, `Iw.C76_chain_shortest`, `Knapsack.C17_needs_numbering`, `Knapsack.C17_np_overweight`, `Knapsack.C17_one_based_raises`, `Knapsack.C18_single_flip_objective_wrong`, `LocalSearch.C25_minimising_reports_worst`, `LocalSearch.C25_restart_mismatch`, `Moves.C20_permutation_swap_one_raises`, `Moves.C20_two_opt_not_every_pair`, `Moves.C21_swaps_not_undone`, `Par.C09_busy_launch_mixes`, `Par.C09_wake_asked`, `Par.C09_wake_race`, `Rcpsp.C28_durations_unchecked`, `Rcpsp.C28_late_overload_accepted`, `Rcpsp.C28_missing_activity_raises`, `Rcpsp.C28_negative_overload_accepted`, `Rcpsp.C28_total_violation_raises`, `RcpspMut.C205_copy_refuted`, `RcpspMut.C205_modes_partial`, `RcpspMut.C205_modes_refuted`, `RcpspMut.C205_mutate`, `RcpspMut.C205_perm`, `RcpspMut.C205_std_refuted`, `RcpspMut.C205_stuck_refuted`, `Results.C22_empty_store_raises`, `Results.C22_explicit_best_kept`, `Results.C47_maximisation_heap_misses_value`, `Results.C47_minimisation_heap_loses_best`, `Riw.C121_lower_depth_pruned`, `Shm.C10_results_overlap`, `Shm.C10_results_spill`, `SkLoader.C203_name_refuted`, `Tsp.C30_swap_leaves_encoding_stale`, `Tsp.C31_intersection_drops_legs`, `Tsp.C31_np_legs_wrong`, `Tsp.C31_np_then_swap_wrong`, `Tsp.C31_swap_asymmetric`, `Tsp.C31_two_opt_no_candidate`, `Views.C174_complete_refuted`, `Views.C175_axis_refuted`, `Views.C175_calendar_refuted`, `Views.C175_short_refuted`, `Vrp.C34_asymmetric_last_leg`, `Worlds.C40_longer_guess_raises`, `Worlds.C42_duplicate_index_lost`, `Worlds.C42_samples_are_elements`

**no axioms** (20): `Core.C03_supplied_kept`, `Core.C43_cast_constraint`, `CpTsp.C186_built`, `Domain.C05_order_one_loses_deque`, `Domain.C05_unbounded_history_raises`, `Domain.C06_rollout_episode_overwrites_memory`, `Durations.C45_uncertain_forgets`, `Ga.C170_empty`, `GraphApi.C172_merge_refuted`, `GraphApi.C172_undirected_refuted`, `GymEnv.C139_round_trip`, `Lns.C116_nothing`, `LocalSearch.C53_minimising_wrong_front`, `PolicyEval.C127_zero_refuted`, `Results.C24_eq_not_transitive`, `Robust.C179_calendar_refuted`, `Sched.C103_raises_refuted`, `Sched.C159_minimum_refuted`, `Tsp.C31_default_tests`, `Worlds.C41_rewards`

**propext, Quot.sound** (190): `Bfws.C79_novelty`, `Binding.C105_calendar_refuted`, `Binding.C105_multiplier_refuted`, `Binding.C105_omitted_need_refuted`, `Binding.C107_count`, `CalBreaks.C189_build`, `CalBreaks.C189_number`, `Cgp.C141_mutate_partial`, `Cgp.C141_random_onto`, `Cgp.C143_check_partial`, `Coloring.C32_accepts_iff`, `Coloring.C32_count`, `Coloring.C32_evaluate`, `Coloring.C32_order`, `Coloring.C55_no_answer`, `Comparator.C192_empty`, `Comparator.C192_prefix_refuted`, `Core.C01_reward_cost_opposite`, `Core.C02_container_cast_succeeds`, `Core.C02_dict_pointwise`, `Core.C02_sequence_pointwise`, `Core.C03_defaults_same_agents`, `Core.C04_cast_keeps_probabilities`, `Core.C04_sample_interval`, `Correct.C177_alone`, `Correct.C177_gap`, `Correct.C177_missing`, `Correct.C177_order`, `CpKnapsack.C183_global_partial`, `CpModes.C187_errors`, `CpModes.C187_order_unsound_refuted`, `CpRcpsp.C181_exceptions`, `CpTsp.C186_negative`, `CpVrp.C191_exact`, `CpVrp.C191_search`, `Cpm.C29_path_short`, `Cpm.C59_zero_ties`, `Cpm.C60_free_raises`, `CpmSgs.C145_all_activities_are_placed_refuted`, `CpmSgs.C146_activities_start_as_early_as_possible_refuted`, `CpmSgs.C146_calendars_are_respected_refuted`, `CpmSgs.C146_the_loop_ends_refuted`, `Defaults.C100_joint_partial`, `Defaults.C100_left_out_refuted`, `Defaults.C100_random_walk`, `Defaults.C100_stranger_raises`, `Domain.C05_markovian`, `Domain.C06_rollout_episode_faithful`, `Domain.C06_rollout_episode_lists_partial`, `Domain.C06_rollout_episode_requires_memory`, `Domain.C06_unlimited`, `Domain.C07_rollout_runs_n_episodes_partial`, `Domain.C07_save_runs_one_episode`, `Domain.C08_match_exact`, `Durations.C45_bounds_tight`, `Durations.C45_first_draw`, `Durations.C45_fixed_partial`, `Durations.C45_remembered`, `Explore.C114_full_one_level`, `Explore.C114_full_refuted`, `Explore.C114_goals_refuted`, `Explore.C114_merge`, `Explore.C114_merge_own`, `Facility.C33_accepts_overload`, `FacilityLp.C109_unpruned`, `Ga.C169_custom_refuted`, `Ga.C169_individual`, `Ga.C169_individual_errors`, `Ga.C170_limit_refuted`, `Ga.C171_alternate_refuted`, `Ga.C171_errors`, `GanttLp.C200_zero_refuted`, `GanttLp.C201_ignore_refuted`, `GanttLp.C201_tasks`, `GanttLp.C201_tasks_refuted`, `GanttLp.C201_work_refuted`, `Gphh.C150_inner`, `Gphh.C154_answer`, `GraphApi.C172_attr_edge`, `GraphApi.C172_closed_refuted`, `GraphApi.C172_nodes`, `GymEnv.C136_copies`, `GymEnv.C138_first`, `GymEnv.C138_reset`, `GymEnv.C138_set_memory_refuted`, `Imopse.C193_recompute_refuted`, `Knapsack.C18_flip_move`, `Knapsack.C18_flip_sequence`, `Knapsack.C18_flip_undo`, `Knapsack.C18_forced_evaluation`, `Knapsack.C18_mutation_keeps_feasible`, `Knapsack.C18_single_flip_objective_partial`, `Knapsack.C19_greedy_partial`, `KnapsackLp.C110_order_refuted`, `Lns.C116_default`, `Lns.C116_equal_stops`, `Lns.C116_skip_max`, `Lns.C116_worse_uncounted`, `Lns.C117_answer`, `Lns.C117_default`, `LpLns.C118_color_empty`, `LpLns.C118_facility_short`, `LpLns.C119_incumbent`, `LpLns.C119_no_schedule`, `Lrtdp.C70_queries_safe`, `Mcts.C88_defined`, `Moves.C20_permutation_swap_last_fixed`, `Moves.C20_shuffle`, `Moves.C20_shuffle_effect`, `Moves.C20_swaps`, `Moves.C20_two_opt_mutation`, `Moves.C20_two_opt_partial`, `Moves.C21_bit_flip`, `Moves.C21_bit_flip_effect`, `Moves.C21_shuffle`, `Moves.C46_integer_mutation_defined`, `Moves.C46_integer_mutation_effect`, `MultiSkill.C97_short_raises`, `Par.C09_can_finish_partial`, `Par.C09_failed_send_leaks`, `Par.C09_ipc_failure_hangs`, `Par.C09_own_result_partial`, `Par.C09_wake_first`, `Par.C09_wake_waits`, `Parse.C164_words`, `Pile.C84_rule_refuted`, `Pile.C85_modes_refuted`, `Pile.C85_priority_refuted`, `Pile.Calendar.C87_errors`, `Pile.Calendar.C87_slot_refuted`, `Pile.Calendar.C87_waiting_refuted`, `PolicyEval.C124_exact`, `Portfolio.C204_available`, `Rcpsp.C26_cycle_raises`, `Rcpsp.C26_instant_activities_not_charged`, `Rcpsp.C26_modes`, `Rcpsp.C26_short_calendar_raises`, `Rcpsp.C57_consumption_forgotten`, `Rcpsp.C57_started_task_moved`, `Rcpsp.C96_unframed_refuted`, `RcpspLp.C111_partial_refuted`, `Registry.C199_class_refuted`, `Registry.C199_keys_refuted`, `Registry.C199_last`, `Registry.C199_look`, `Registry.C199_tables`, `Registry.C199_unlisted_raises`, `Results.C22_last_best`, `Results.C22_last_best_defined`, `Results.C22_stored_once`, `Results.C47_heap_bounded`, `Robust.C179_contain`, `Robust.C179_durations`, `Robust.C179_requirements`, `Sched.C160_mode`, `Sched.C16_gantt_never_catches_up`, `Sched.C16_gantt_tries_only_one`, `Sched.C16_no_exception`, `Sched.C16_no_schedule_first_ready`, `Sched.C16_precedence_picks_first`, `Sched.C16_ready_picks_first`, `Sched.C16_returns_accepted_or_time`, `Sched.C16_time_window_picks_first`, `Shm.C10_enough_registers`, `Shm.C10_layout_disjoint`, `SkLoader.C203_calendar_refuted`, `SkLoader.C203_empty_raises`, `SkLoader.C203_load`, `Tsp.C30_to_original_total`, `Tsp.C31_two_opt_length`, `Tsp.C56_decides_partial`, `Tsp.C56_never_true`, `TspLp.C113_complete_partial`, `TspLp.C113_graphs`, `TspLp.C113_no_inner`, `TspTools.C195_whole`, `Views.C174_diff`, `Views.C174_errors`, `Views.C174_nice`, `Views.C175_fair`, `Vrp.C34_accepts_twice`, `Vrp.C34_accepts_unserved`, `Vrp.C34_route`, `VrpTools.C196_graph`, `VrpTools.C196_graph_refuted`, `VrpTools.C196_output`, `VrpTools.C196_output_refuted`, `Worlds.C42_enum_json`, `Worlds.C42_errors`, `Worlds.C50_maze_manhattan_admissible`

**propext, Classical.choice, Quot.sound** (933): `AoStar.C71_attained`, `AoStar.C71_defined`, `AoStar.C71_ends`, `AoStar.C71_inadmissible`, `AoStar.C71_optimal`, `AoStar.C71_policy`, `AoStar.C72_ends`, `AoStar.C72_false_alarm`, `AoStar.C72_false_alarm_tips`, `AoStar.C72_hangs`, `AoStar.C72_layered_partial`, `AoStar.C72_no_cycle`, `AoStar.C72_reported`, `AoStar.C73_goal_poisoned`, `AoStar.C73_goal_root`, `AoStar.C73_no_tips`, `AoStar.C73_only_error`, `AoStar.C73_stuck_crash`, `AoStar.C73_stuck_no_answer`, `Ars.C167_best_refuted`, `Ars.C167_box_refuted`, `Ars.C167_minimize_refuted`, `Ars.C167_rewards`, `Ars.C167_setup`, `Ars.C167_solve`, `Ars.C167_steps`, `Ars.C167_update`, `Ars.C168_errors`, `Ars.C168_normalize`, `Ars.C168_observe`, `Ars.C168_order`, `Bfws.C77_finds_plan_iff`, `Bfws.C77_finishes`, `Bfws.C77_goal_root`, `Bfws.C77_library_queue_lawful`, `Bfws.C77_not_optimal`, `Bfws.C77_second_solve_crashes`, `Bfws.C77_tells`, `Bfws.C78_greedy`, `Bfws.C78_misled`, `Bfws.C79_more_new_features_come_later`, `Bfws.C79_novelty_range`, `Bfws.C79_search`, `Bfws.C79_second_evaluation`, `Bfws.C79_stale_heap`, `Binding.C105_domain_to_problem`, `Binding.C105_problem_to_domain`, `Binding.C105_round_trip`, `Binding.C105_same_modes`, `Binding.C106_numbering_refuted`, `Binding.C106_solved_and_run_partial`, `Binding.C107_drawn`, `Binding.C107_every`, `Binding.C107_noise_mean`, `Binding.C107_noise_values`, `Binding.C107_plans`, `Binding.C107_renewable_refuted`, `Binding.C107_stochastic`, `CalBreaks.C189_breaks`, `CalBreaks.C189_cut_excludes`, `CalBreaks.C189_cut_valid`, `CalBreaks.C189_judge`, `Cgp.C140_backward_refuted`, `Cgp.C140_first_run_refuted`, `Cgp.C140_outside_refuted`, `Cgp.C140_program`, `Cgp.C140_settles`, `Cgp.C140_shallow`, `Cgp.C140_total`, `Cgp.C140_used`, `Cgp.C141_clone_refuted`, `Cgp.C141_no_inputs_refuted`, `Cgp.C141_per_gene_partial`, `Cgp.C141_per_gene_range`, `Cgp.C141_random`, `Cgp.C141_rows_raise_refuted`, `Cgp.C141_rows_refuted`, `Cgp.C142_best`, `Cgp.C142_generation`, `Cgp.C142_no_offsprings_refuted`, `Cgp.C142_order_refuted`, `Cgp.C142_rows_refuted`, `Cgp.C142_total_partial`, `Cgp.C142_weighted`, `Cgp.C142_witness`, `Cgp.C143_action`, `Cgp.C143_check_refuted`, `Cgp.C143_choice`, `Cgp.C143_half_line_refuted`, `Cgp.C143_interval`, `Cgp.C143_inverse`, `Cgp.C143_one_choice_refuted`, `Cgp.C143_solver_action`, `Cgp.C143_tuple_refuted`, `Cgp.C143_unbounded_refuted`, `Cgp.C202_ends`, `Cgp.C202_extremes`, `Cgp.C202_inverse_refuted`, `Cgp.C202_outside_raises`, `Cgp.C202_program`, `Cgp.C202_range`, `Cgp.C202_round`, `Coloring.C32_accepts_iff_count_zero`, `Coloring.C32_cached_counts_stale`, `Coloring.C32_dummy`, `Coloring.C32_rejects_iff`, `Coloring.C32_renumber`, `Coloring.C32_renumber_accepts`, `Coloring.C55_greedy`, `ColoringLp.C108_built_partial`, `ColoringLp.C108_complete`, `ColoringLp.C108_names_refuted`, `ColoringLp.C108_optimal`, `ColoringLp.C108_sound`, `Comparator.C192_best`, `Comparator.C192_best_raises`, `Comparator.C192_duplicates`, `Comparator.C192_front`, `Comparator.C192_front_refuted`, `Comparator.C192_reevaluated`, `Comparator.C192_twice_refuted`, `Comparator.C192_unbeaten`, `Comparator.C192_weights_refuted`, `Core.C02_cast_roundtrip`, `Core.C04_sample_in_support`, `Core.C43_bound_constraint`, `Core.C43_strict_differs_at_bound`, `Correct.C177_correct`, `Correct.C177_latest_refuted`, `Correct.C177_step`, `CpColoring.C185_built`, `CpColoring.C185_cliques_refuted`, `CpColoring.C185_complete`, `CpColoring.C185_directed_refuted`, `CpColoring.C185_lns`, `CpColoring.C185_neighbourhood`, `CpColoring.C185_optimal`, `CpColoring.C185_size`, `CpColoring.C185_sound`, `CpColoring.C185_squeeze`, `CpColoring.C185_squeeze_proper`, `CpFacility.C184_complete`, `CpFacility.C184_free_refuted`, `CpFacility.C184_lns_partial`, `CpFacility.C184_neighbourhood`, `CpFacility.C184_objective_partial`, `CpFacility.C184_optimal_partial`, `CpFacility.C184_overload_refuted`, `CpFacility.C184_sound`, `CpFacility.C184_truncation_refuted`, `CpKnapsack.C183_list_partial`, `CpKnapsack.C183_lns_error`, `CpKnapsack.C183_lns_partial`, `CpKnapsack.C183_same_partial`, `CpModes.C187_complete`, `CpModes.C187_order_refuted`, `CpModes.C187_sound`, `CpMulti.C182_complete_partial`, `CpMulti.C182_sound`, `CpMulti.C182_source_refuted`, `CpNeigh.C188_answers`, `CpNeigh.C188_choices`, `CpNeigh.C188_incumbent`, `CpNeigh.C188_interval`, `CpNeigh.C188_mix`, `CpNeigh.C188_part`, `CpNeigh.C188_returned_refuted`, `CpNeigh.C188_turns`, `CpNeigh.C188_worse_refuted`, `CpRcpsp.C181_chain_refuted`, `CpRcpsp.C181_complete_partial`, `CpRcpsp.C181_milestone_refuted`, `CpRcpsp.C181_sound`, `CpTsp.C186_complete`, `CpTsp.C186_directed_refuted`, `CpTsp.C186_int_gap`, `CpTsp.C186_int_refuted`, `CpTsp.C186_negative_refuted`, `CpTsp.C186_no_inner_refuted`, `CpTsp.C186_optimal`, `CpTsp.C186_sound`, `CpVrp.C191_any`, `CpVrp.C191_best`, `CpVrp.C191_complete`, `CpVrp.C191_cut_refuted`, `CpVrp.C191_sound`, `Cpm.C29_critical_iff`, `Cpm.C29_dates`, `Cpm.C29_feasible`, `Cpm.C29_path_partial`, `Cpm.C29_window`, `Cpm.C59_order_partial`, `Cpm.C60_returns_last_blocked`, `CpmSgs.C144_links_join_delayed_activities_to_users`, `CpmSgs.C144_no_activity_can_start_earlier`, `CpmSgs.C144_schedules_respect_precedences_and_capacities`, `CpmSgs.C145_all_activities_are_placed`, `CpmSgs.C145_critical_activities_and_ancestors_are_placed`, `CpmSgs.C146_one_activity_starts_at_a_time`, `CpmSgs.C146_time_loop_returns`, `CpmSgs.C146_time_loop_schedules_are_feasible`, `CppAStar.C64_finishes`, `CppAStar.C64_gives_up_rightly`, `CppAStar.C64_goal_root_value_infinite`, `CppAStar.C64_library_queue_lawful`, `CppAStar.C64_tells_plan`, `CppAStar.C65_library_queue_suboptimal`, `CppAStar.C65_optimal_on_trees`, `CppAStar.C65_optimal_partial`, `CppAStar.C66_best_action_overwritten`, `CppAStar.C66_second_solve_fails`, `CppAStar.C66_second_solve_wrong`, `CppAStar.C66_solved_again_partial`, `Defaults.C101_stable_partial`, `Defaults.C99_complete_partial`, `Defaults.C99_deterministic`, `Defaults.C99_from_memory_partial`, `Defaults.C99_from_memory_refuted`, `Defaults.C99_history_refuted`, `Defaults.C99_sample_is_step_partial`, `Defaults.C99_sound_partial`, `Domain.C05_finite_history_partial`, `Durations.C45_fixed_ignores_progress`, `Durations.C45_uniform`, `Durations.C45_uniform_bad_bounds`, `Durations.C45_uniform_bounds`, `Explore.C114_complete`, `Explore.C114_defaults_raise`, `Explore.C114_finite`, `Explore.C114_graph_lost`, `Explore.C114_graph_partial`, `Explore.C114_limits_refuted`, `Explore.C114_no_goal`, `Explore.C114_safe`, `Explore.C114_sound`, `Explore.C115_back_lost`, `Explore.C115_complete`, `Explore.C115_defaults`, `Explore.C115_finite`, `Explore.C115_goals_differ`, `Explore.C115_reachable`, `Explore.C115_reachable_finite`, `Explore.C115_safe`, `Explore.C115_sound`, `Explore.C115_terminal`, `Explore.C115_transitions_refuted`, `Explore.C115_tree`, `Facility.C33_accepts_iff_partial`, `Facility.C33_costs`, `Facility.C33_greedy`, `Facility.C33_single_facility_partial`, `Facility.C33_within_accepted`, `FacilityLp.C109_complete`, `FacilityLp.C109_optimal_partial`, `FacilityLp.C109_pruned_refuted`, `FacilityLp.C109_sound`, `Ga.C169_mutate`, `Ga.C169_mutation_range_refuted`, `Ga.C170_aggregate`, `Ga.C170_best`, `Ga.C170_default_refuted`, `Ga.C170_evals`, `Ga.C170_multi_refuted`, `Ga.C170_single_refuted`, `Ga.C170_small_refuted`, `Ga.C170_string_refuted`, `Ga.C170_tournament`, `Ga.C170_weights`, `Ga.C171_last`, `GanttLp.C200_complete_partial`, `GanttLp.C200_nobody_raises`, `GanttLp.C200_sound`, `GanttLp.C201_objective`, `GanttLp.C201_work_partial`, `GanttLp.C201_work_valid`, `Gphh.C150_division`, `Gphh.C150_extremes`, `Gphh.C150_negated`, `Gphh.C150_order_only`, `Gphh.C150_rank`, `Gphh.C151_bounds`, `Gphh.C151_extremes_refuted`, `Gphh.C151_median`, `Gphh.C151_random_refuted`, `Gphh.C151_single`, `Gphh.C151_trim`, `Gphh.C152_features`, `Gphh.C152_mean_share`, `Gphh.C152_no_resource_refuted`, `Gphh.C152_shares`, `Gphh.C152_zero_capacity_refuted`, `Gphh.C153_best`, `Gphh.C153_hamming`, `Gphh.C153_order_distance_refuted`, `Gphh.C153_penalty`, `Gphh.C153_tau`, `Gphh.C154_finishes_partial`, `Gphh.C154_numbers_refuted`, `Gphh.C154_priority_partial`, `GraphApi.C172_ancestors`, `GraphApi.C172_attr_symmetric`, `GraphApi.C172_maps`, `GraphApi.C172_neighbors`, `GraphApi.C172_networkx`, `GraphApi.C172_symmetric`, `GraphApi.C173_errors`, `GraphApi.C173_graph`, `GraphApi.C173_rcpsp`, `Gym.C132_bee1_first`, `Gym.C132_bee1_node`, `Gym.C132_bee1_total`, `Gym.C132_bee2_first`, `Gym.C132_bee2_node`, `Gym.C132_bee2_total`, `Gym.C132_repeat_refuted`, `Gym.C132_spaces`, `Gym.C132_spaces_refuted`, `Gym.C133_dict_refuted`, `Gym.C133_discrete`, `Gym.C133_injective`, `Gym.C133_length`, `Gym.C133_negative_zero_refuted`, `Gym.C134_equal`, `Gym.C134_structure_refuted`, `Gym.C135_box`, `Gym.C135_box_refuted`, `Gym.C135_discrete`, `Gym.C135_factor_one_refuted`, `Gym.C135_multiDiscrete`, `Gym.C135_tuple`, `Gym.C135_unsupported_refuted`, `GymEnv.C136_next`, `GymEnv.C136_path`, `GymEnv.C136_value_refuted`, `GymEnv.C137_accumulated_refuted`, `GymEnv.C137_depth`, `GymEnv.C137_goal`, `GymEnv.C137_multi_discrete_refuted`, `GymEnv.C139_bad_action`, `GymEnv.C139_flag_refuted`, `GymEnv.C139_reset_refuted`, `GymEnv.C139_step`, `Helpers.C176_acyclic`, `Helpers.C176_acyclic_refuted`, `Helpers.C176_given_unchanged_refuted`, `Helpers.C176_horizon_refuted`, `Helpers.C176_kept`, `Helpers.C176_modes`, `Helpers.C176_new_resource_refuted`, `Helpers.C176_plain`, `Helpers.C176_precedences`, `Helpers.C176_sink_last`, `Helpers.C176_source_first_refuted`, `Helpers.C176_too_many`, `Hindsight.C157_again`, `Hindsight.C157_answers`, `Hindsight.C157_bound`, `Hindsight.C157_exact_partial`, `Hindsight.C157_loop_refuted`, `Hindsight.C157_no_scenarios`, `Hindsight.C157_shared_refuted`, `Hindsight.C157_unanimous`, `Hindsight.C158_again_refuted`, `Hindsight.C158_first_partial`, `Hindsight.C158_middle_refuted`, `Ilao.C80_applicable`, `Ilao.C80_goal_first_refuted`, `Ilao.C80_goals`, `Ilao.C80_lower_bound`, `Ilao.C81_complete_refuted`, `Ilao.C81_optimality_refuted`, `Ilao.C81_returns_partial`, `Ilao.C82_dead_end_refuted`, `Ilao.C82_dead_root_hangs`, `Ilao.C82_epsilon_hangs`, `Ilao.C82_goal_returns`, `Ilao.C82_no_exception`, `Imopse.C193_recompute`, `Imopse.C193_round_trip`, `Imopse.C193_word_refuted`, `Imopse.C193_workers_refuted`, `Imopse.C193_write_raises`, `ImopseRead.C194_level_refuted`, `ImopseRead.C194_names`, `ImopseRead.C194_predecessor_raises`, `ImopseRead.C194_read`, `ImopseRead.C194_zone_refuted`, `Iw.C74_finishes`, `Iw.C74_goal_root`, `Iw.C74_library_queue_lawful`, `Iw.C74_negative_costs_hang`, `Iw.C74_not_optimal`, `Iw.C74_second_solve_crashes`, `Iw.C74_tells`, `Iw.C74_time_left_breaks_plan`, `Iw.C75_coarse_features_incomplete`, `Iw.C75_finds_plan_iff`, `Iw.C75_gives_up_rightly`, `Iw.C75_no_features_no_search`, `Iw.C75_root_with_fewer_features`, `Iw.C76_novelty`, `Iw.C76_one_width`, `Iw.C76_tuples`, `Iw.C76_width_guarantee_partial`, `Iw.C76_width_one`, `Knapsack.C17_greedy_start_heavy_raises`, `Knapsack.C17_greedy_start_optimal`, `Knapsack.C17_optimal`, `Knapsack.C17_optimal_among_processed`, `Knapsack.C18_evaluate`, `Knapsack.C18_mutation_effect`, `Knapsack.C19_best_of_greedy_partial`, `Knapsack.C19_heavy_item_raises`, `Knapsack.C19_queues`, `KnapsackLp.C110_lns_partial`, `KnapsackLp.C110_optimal_partial`, `KnapsackLp.C110_packings_partial`, `Lns.C116_answer`, `Lns.C116_constraints`, `Lns.C116_descent`, `Lns.C116_identity`, `Lns.C116_skip_refuted`, `Lns.C117_constraints`, `Lns.C117_descent`, `Lns.C117_patience_partial`, `Lns.C117_satisfy_refuted`, `Lns.C117_skip_refuted`, `LocalSearch.C25_best_partial`, `LocalSearch.C25_climb_monotone`, `LocalSearch.C25_objective_matches`, `LocalSearch.C25_stored`, `LocalSearch.C53_front_partial`, `LocalSearch.C53_moves`, `LpLns.C118_color_best`, `LpLns.C118_color_exact`, `LpLns.C118_color_high_refuted`, `LpLns.C118_facility_best`, `LpLns.C118_facility_exact`, `LpLns.C118_facility_first`, `LpLns.C118_facility_pruned_refuted`, `LpLns.C119_fix_exact`, `LpLns.C119_fix_horizon_refuted`, `LpLns.C119_fix_incumbent`, `LpLns.C119_fix_last_refuted`, `LpLns.C119_multi_best`, `LpLns.C119_multi_exact`, `LpLns.C119_single_best`, `LpLns.C119_single_exact`, `LpLns.C119_single_horizon_refuted`, `Lrtdp.C67_goal_first_overestimates`, `Lrtdp.C67_lower_bound`, `Lrtdp.C67_no_labels_overestimates`, `Lrtdp.C68_depth_labels_wrong`, `Lrtdp.C68_label_final`, `Lrtdp.C68_labels_right_partial`, `Lrtdp.C69_near_optimal_discounted_partial`, `Lrtdp.C69_near_optimal_partial`, `Lrtdp.C70_dead_end_crashes`, `Lrtdp.C70_goal_without_action_crashes`, `Lrtdp.C70_no_crash`, `Lrtdp.C70_root_has_action`, `MaxEnt.C190_below_refuted`, `MaxEnt.C190_bounded`, `MaxEnt.C190_box_refuted`, `MaxEnt.C190_cell`, `MaxEnt.C190_episode`, `MaxEnt.C190_epoch`, `MaxEnt.C190_expectations`, `MaxEnt.C190_expert_refuted`, `MaxEnt.C190_gradient`, `MaxEnt.C190_index`, `MaxEnt.C190_loaded`, `MaxEnt.C190_lost_refuted`, `MaxEnt.C190_missing_refuted`, `MaxEnt.C190_nonpositive`, `MaxEnt.C190_policy`, `MaxEnt.C190_reduced_refuted`, `MaxEnt.C190_returned`, `MaxEnt.C190_safe`, `MaxEnt.C190_top_refuted`, `MaxEnt.C190_turn`, `MaxEnt.C190_wraps_refuted`, `Mcts.C88_best`, `Mcts.C88_goal_refuted`, `Mcts.C88_root`, `Mcts.C88_runs_partial`, `Mcts.C89_bounds`, `Mcts.C89_cycle_refuted`, `Mcts.C89_geometric`, `Mcts.C89_visits`, `Mcts.C90_explored`, `Mcts.C90_ucb1`, `Mcts.C90_unbounded`, `Mcts.C91_mean`, `Mcts.C91_one_step_partial`, `Mcts.C91_terminal_refuted`, `Moves.C20_partial_shuffle`, `Moves.C20_partial_shuffle_effect`, `Moves.C20_permutation_swap`, `Moves.C20_swap_effect`, `Moves.C20_two_opt_effect`, `Moves.C21_swaps_partial`, `Moves.C21_swaps_reverse_restores`, `Moves.C21_two_opt`, `Moves.C46_integer_mutation`, `MsLp.C155_accepted_partial`, `MsLp.C155_builds`, `MsLp.C155_calendar_refuted`, `MsLp.C155_instant_refuted`, `MsLp.C155_one_worker_refuted`, `MsLp.C155_sound`, `MsLp.C156_complete_partial`, `MsLp.C156_makespan_partial`, `MsLp.C156_optimal`, `MsLp.C156_two_skills_refuted`, `MsLpLns.C198_fix_refuted`, `MsLpLns.C198_improves`, `MsLpLns.C198_near`, `MsLpLns.C198_sample_raises`, `MultiSkill.C92_activities`, `MultiSkill.C92_cycle_raises`, `MultiSkill.C92_durations`, `MultiSkill.C92_earliest`, `MultiSkill.C92_ends_at_horizon_refuted`, `MultiSkill.C92_instant_activities_not_charged`, `MultiSkill.C92_modes`, `MultiSkill.C92_never_raises`, `MultiSkill.C92_nonrenewable_partial`, `MultiSkill.C92_precedence`, `MultiSkill.C92_priority`, `MultiSkill.C92_renewable`, `MultiSkill.C92_sink_with_skill_raises`, `MultiSkill.C93_at_work`, `MultiSkill.C93_idle_worker_blocked`, `MultiSkill.C93_incomplete_lists_refuted`, `MultiSkill.C93_levels`, `MultiSkill.C93_noted_skills`, `MultiSkill.C93_one_place`, `MultiSkill.C93_one_worker`, `MultiSkill.C94_accepts_generated`, `MultiSkill.C94_accepts_iff`, `MultiSkill.C94_after_sink_refuted`, `MultiSkill.C94_durations_refuted`, `MultiSkill.C94_instant_rejected`, `MultiSkill.C94_raises_refuted`, `MultiSkill.C95_accepted`, `MultiSkill.C95_earliest`, `MultiSkill.C95_instant_refuted`, `MultiSkill.C95_never_later`, `MultiSkill.C95_never_raises`, `MultiSkill.C95_precedence`, `MultiSkill.C95_resources_refuted`, `MultiSkill.C95_same`, `MultiSkill.C95_workers`, `MultiSkill.C97_accepted`, `MultiSkill.C97_copy`, `MultiSkill.C97_dummy`, `MultiSkill.C97_encoding`, `MultiSkill.C97_evaluate`, `MultiSkill.C97_fixed`, `MultiSkill.C97_from0`, `MultiSkill.C97_from0_refuted`, `MultiSkill.C97_limit_lost_refuted`, `MultiSkill.C97_longer_refuted`, `MultiSkill.C97_lost_refuted`, `MultiSkill.C97_makespan`, `MultiSkill.C97_ranks`, `MultiSkill.C97_ranks_full`, `MultiSkill.C97_strangers_refuted`, `MultiSkill.C97_unfixed_raises`, `MultiSkill.C97_unhandled_refuted`, `MultiSkill.C98_converse_refuted`, `MultiSkill.C98_first_refuted`, `MultiSkill.C98_last_refuted`, `MultiSkill.C98_project`, `MultiSkill.C98_raises_refuted`, `MultiSkill.C98_relaxation`, `MultiSkill.C98_rows`, `MultiSkill.C98_skill_load`, `Objectives.C44_default`, `Objectives.C44_missing_raises`, `Objectives.C44_order_irrelevant`, `Objectives.C44_ranking`, `Objectives.C44_same`, `Objectives.C44_weighted`, `Objectives.C54_methods`, `Objectives.C54_no_scenario_raises`, `Objectives.C54_robust`, `OrTools.C197_cost`, `OrTools.C197_end_refuted`, `OrTools.C197_large_refuted`, `OrTools.C197_retrieve`, `OrTools.C197_satisfied_partial`, `OrTools.C197_tour`, `OrTools.C197_tour_cost_partial`, `OrTools.C197_tour_cost_refuted`, `OrTools.C197_tour_longer_refuted`, `Parse.C164_blank_refuted`, `Parse.C164_coloring`, `Parse.C164_coloring_range_refuted`, `Parse.C164_facility`, `Parse.C164_knapsack`, `Parse.C164_knapsack_short`, `Parse.C164_numbers`, `Parse.C164_tsp`, `Parse.C164_tsp_head_refuted`, `Parse.C164_vrp`, `Parse.C165_extra_word_refuted`, `Parse.C165_missing`, `Parse.C165_mode_count_refuted`, `Parse.C165_read`, `Parse.C165_same_name_refuted`, `Parse.C166_exceptions`, `Parse.C166_long`, `Parse.C166_missing_refuted`, `Parse.C166_order_refuted`, `Parse.C166_read`, `Pile.C83_feasible`, `Pile.C83_permutation`, `Pile.C84_ends`, `Pile.C84_infeasible`, `Pile.C84_nondelay`, `Pile.C84_rule_partial`, `Pile.C84_solves`, `Pile.C85_consumed`, `Pile.C85_feasible`, `Pile.C85_missing`, `Pile.C85_priority_partial`, `Pile.C85_solves`, `Pile.Calendar.C86_feasible`, `Pile.Calendar.C86_horizon`, `Pile.Calendar.C86_nonrenewable_refuted`, `Pile.Calendar.C86_permutation`, `Pile.Calendar.C87_end_refuted`, `Pile.Calendar.C87_index_refuted`, `Pile.Calendar.C87_solves_partial`, `PolicyEval.C124_assert`, `PolicyEval.C124_ends`, `PolicyEval.C124_zero_refuted`, `PolicyEval.C125_complete`, `PolicyEval.C125_correct`, `PolicyEval.C125_loop_refuted`, `PolicyEval.C125_returns`, `PolicyEval.C125_start_refuted`, `PolicyEval.C126_average`, `PolicyEval.C126_deterministic`, `PolicyEval.C126_fast`, `PolicyEval.C126_penalty_refuted`, `PolicyEval.C127_agree`, `PolicyEval.C127_best`, `PolicyEval.C127_errors`, `Pomcp.C130_answer`, `Pomcp.C130_iterations`, `Pomcp.C130_mean`, `Pomcp.C130_no_goal`, `Pomcp.C130_untried`, `Pomcp.C130_untried_refuted`, `Pomcp.C130_update`, `Pomcp.C130_visits`, `Pomcp.C131_belief`, `Pomcp.C131_belief_errors`, `Pomcp.C131_depth_zero_refuted`, `Pomcp.C131_large_costs_refuted`, `Pomcp.C131_order_refuted`, `Pomcp.C131_total`, `Portfolio.C204_choice`, `Portfolio.C204_negative_refuted`, `Portfolio.C204_raises`, `Rcpsp.C26_activities`, `Rcpsp.C26_durations`, `Rcpsp.C26_feasible_with_room`, `Rcpsp.C26_never_raises`, `Rcpsp.C26_nonrenewable_partial`, `Rcpsp.C26_precedence`, `Rcpsp.C26_renewable`, `Rcpsp.C27_earliest`, `Rcpsp.C27_priority`, `Rcpsp.C28_accepts_generated`, `Rcpsp.C28_accepts_iff_partial`, `Rcpsp.C28_sound_all_times`, `Rcpsp.C57_activities`, `Rcpsp.C57_durations`, `Rcpsp.C57_precedence_partial`, `Rcpsp.C57_renewable_partial`, `Rcpsp.C58_permutation`, `Rcpsp.C96_fixed_point`, `Rcpsp.C96_never_later`, `RcpspLp.C111_attribute`, `RcpspLp.C111_built_partial`, `RcpspLp.C111_complete_partial`, `RcpspLp.C111_nonrenewable_refuted`, `RcpspLp.C111_optimal_partial`, `RcpspLp.C111_sound_partial`, `RcpspLp.C112_accepted`, `RcpspLp.C112_built`, `RcpspLp.C112_complete`, `RcpspLp.C112_horizon_refuted`, `RcpspLp.C112_kept`, `RcpspLp.C112_modes_refuted`, `RcpspLp.C112_optimal_partial`, `RcpspLp.C112_sound`, `RcpspLp.C112_start_fits`, `Results.C22_best_partial`, `Results.C23_extreme_points`, `Results.C23_front_covers`, `Results.C23_front_exact`, `Results.C23_order_independent`, `Results.C24_comparisons`, `Results.C24_scaling`, `Results.C24_strict_order`, `Results.C47_final_heap_sorted`, `Results.C47_heap_head_partial`, `Riw.C120_action`, `Riw.C120_depth`, `Riw.C120_depth_wraps`, `Riw.C120_graph`, `Riw.C121_budget`, `Riw.C121_circle_hangs`, `Riw.C121_dead_end`, `Riw.C121_no_solution`, `Riw.C121_novel`, `Riw.C121_number`, `Riw.C121_table`, `Riw.C121_true_despite_pruning`, `Riw.C121_value_reset`, `Riw.C122_long_paths_throw`, `Riw.C122_returns`, `Riw.C123_cut_refuted`, `Riw.C123_optimal`, `Riw.C123_told_apart`, `Robust.C178_best`, `Robust.C178_between`, `Robust.C178_entries`, `Robust.C178_made`, `Robust.C178_makespan_refuted`, `Robust.C178_missing`, `Robust.C178_no_test_refuted`, `Robust.C178_rounded_refuted`, `Robust.C178_split`, `Robust.C178_worst`, `Robust.C179_milestone_refuted`, `Robust.C180_average`, `Robust.C180_average_refuted`, `Robust.C180_best_refuted`, `Robust.C180_details`, `Robust.C180_percentile`, `Robust.C180_percentile_mono`, `Robust.C180_percentile_refuted`, `Robust.C180_probabilities`, `Robust.C180_worst`, `Sched.C102_order_refuted`, `Sched.C102_replay_partial`, `Sched.C102_zero_duration_refuted`, `Sched.C103_consumed`, `Sched.C103_impossible_stays`, `Sched.C103_joint_refuted`, `Sched.C103_test_iff_partial`, `Sched.C104_gantt_refuted`, `Sched.C104_incomplete_refuted`, `Sched.C104_list_methods_finish_partial`, `Sched.C104_negative_freedom_refuted`, `Sched.C11_complete_stays`, `Sched.C11_conditional_tasks`, `Sched.C11_conditional_tasks_enter`, `Sched.C11_exactly_one_set`, `Sched.C11_steps_keep_tasks`, `Sched.C12_start_proposals_complete`, `Sched.C12_start_proposals_sound`, `Sched.C12_starts_after_predecessors`, `Sched.C13_availability_updated`, `Sched.C13_capacity_partial`, `Sched.C13_capacity_proposed`, `Sched.C13_in_use_is_sum_of_needs_partial`, `Sched.C13_only_ongoing_hold`, `Sched.C13_pause_nonrenewable_raises`, `Sched.C13_resume_check_raises`, `Sched.C13_resume_without_resources`, `Sched.C13_varying_needs_overuse`, `Sched.C13_varying_needs_raise`, `Sched.C13_zero_duration_leaks`, `Sched.C147_answer`, `Sched.C147_descendants`, `Sched.C147_fastest`, `Sched.C147_mode_names_refuted`, `Sched.C147_most_successors`, `Sched.C147_sample`, `Sched.C147_sampled`, `Sched.C147_total`, `Sched.C148_finishes_partial`, `Sched.C148_other_modes_refuted`, `Sched.C14_completes_after_duration_partial`, `Sched.C14_completes_at_threshold`, `Sched.C14_early_completion`, `Sched.C14_long_task_completes_early`, `Sched.C159_ignored_refuted`, `Sched.C159_maximum`, `Sched.C159_none`, `Sched.C159_windows`, `Sched.C15_clock_run`, `Sched.C15_clock_simulated`, `Sched.C15_clock_step`, `Sched.C160_consumed_refuted`, `Sched.C160_cost`, `Sched.C160_free`, `Sched.C160_instant_refuted`, `Sched.C160_makespan`, `Sched.C160_rejected_refuted`, `Sched.C160_steps`, `Sched.C161_no_tests_refuted`, `Sched.C161_outcomes`, `Sched.C161_start`, `Sched.C161_start_and_time_refuted`, `Sched.C161_total_partial`, `Sched.C161_two_tests_refuted`, `Sched.C162_accepted`, `Sched.C162_paused_refuted`, `Sched.C162_space`, `Sched.C162_start_paused_refuted`, `Sched.C163_accepted`, `Sched.C163_no_team`, `Sched.C163_over`, `Sched.C163_resume`, `Sched.C163_resume_refuted`, `Sched.C163_team`, `Sched.C16_following_within_capacity`, `Sched.C16_index_window_picks_first`, `Sched.C16_precedence_needs_full_schedule`, `Sched.C48_goal_all_entered_complete_partial`, `Sched.C48_goal_iff_all_complete`, `Sched.C48_goal_misses_conditional_task`, `Sched.C49_accepted_start_starts`, `Sched.C49_start_charges`, `Sched.C61_non_preemptive_never_raise`, `Sched.C61_preemptive_raises`, `Sched.C61_proposed_never_raise_partial`, `Sched.C62_eager_play_reaches_goal_partial`, `Sched.C62_zero_duration_blocks`, `Sched.C63_only_last_mode_proposed`, `Sched.C63_proposals`, `Search.C35_result`, `Search.C35_start_at_goal_raises`, `Search.C35_terminates`, `Search.C35_values_are_costs`, `Search.C36_admissible_not_enough`, `Search.C36_optimal`, `Search.C37_admissible_partial`, `Search.C37_cycle_decreases`, `Search.C37_cycle_overestimates`, `Search.C37_monotone_partial`, `Search.C37_start_at_goal_raises`, `Search.C51_weighted_bound`, `Search.C52_stops_optimal`, `Shm.C10_arguments`, `Shm.C10_other_workers`, `Shm.C10_other_workers_results_partial`, `Shm.C10_results_partial`, `SimpleGreedy.C149_greedy_partial`, `SimpleGreedy.C149_independent_refuted`, `SimpleGreedy.C149_total_partial`, `Tsp.C30_nodes`, `Tsp.C30_permutations`, `Tsp.C30_round_trip`, `Tsp.C30_to_from0_total`, `Tsp.C31_build`, `Tsp.C31_build_np_partial`, `Tsp.C31_swap`, `Tsp.C31_swap_backtrack`, `Tsp.C31_two_opt`, `Tsp.C56_rejects_every_tour`, `TspLp.C113_built`, `TspLp.C113_cut`, `TspLp.C113_finishes_partial`, `TspLp.C113_no_tour_refuted`, `TspLp.C113_optimal_partial`, `TspLp.C113_pruned`, `TspLp.C113_single_component`, `TspLp.C113_solve`, `TspLp.C113_ties_refuted`, `TspLp.C113_tours_partial`, `TspLp.C113_two_nodes_refuted`, `TspTools.C195_baseline`, `TspTools.C195_coincide_refuted`, `TspTools.C195_greedy`, `TspTools.C195_length`, `TspTools.C195_length_raises`, `TspTools.C195_nearest_refuted`, `TspTools.C195_points_raise`, `Ttp.C128_bounds`, `Ttp.C128_errors`, `Ttp.C128_once`, `Ttp.C128_overload_refuted`, `Ttp.C128_sums`, `Ttp.C128_twice_refuted`, `Ttp.C129_best_refuted`, `Ttp.C129_candidates`, `Ttp.C129_capacity`, `Ttp.C129_capacity_refuted`, `Ttp.C129_flip`, `Ttp.C129_recursion`, `Ttp.C129_two_opt_refuted`, `Views.C174_modes`, `Views.C174_satisfy`, `Views.C174_shift`, `Views.C174_view`, `Views.C175_units`, `Vrp.C34_satisfy_iff_partial`, `Vrp.C34_trivial`, `Vrp.C34_trivial_accepted`, `Vrp.C34_trivial_maximal`, `Vrp.C34_trivial_returns`, `VrpTools.C196_first_refuted`, `VrpTools.C196_prune`, `VrpTools.C196_prune_refuted`, `VrpTools.C196_recompute`, `Worlds.C38_greedy`, `Worlds.C38_independent_raises`, `Worlds.C39_grid_start_goal`, `Worlds.C39_grid_step`, `Worlds.C39_maze_parse`, `Worlds.C39_maze_run`, `Worlds.C39_maze_step`, `Worlds.C39_short_row_raises`, `Worlds.C40_all_exact`, `Worlds.C40_all_misplaced_outside_space`, `Worlds.C40_codes`, `Worlds.C40_in_space_partial`, `Worlds.C40_score`, `Worlds.C40_symmetric`, `Worlds.C40_win_outside_space`, `Worlds.C41_length`, `Worlds.C42_indices_round_trip`, `Worlds.C42_members_round_trip`, `Worlds.C50_grid_manhattan_exact`


{"id": "C01", "title": "Reward and cost of a transition value are always opposite", "statement": "However a transition value is constructed (with a reward, with a cost, with both, or with neither), reading its reward and its cost gives two numbers that are opposite; a supplied reward is returned unchanged, a supplied cost is returned unchanged when no reward was supplied, and the defaults are zero.", "quantifier": "every combination of optional reward and optional cost, and every number", "why_tests_cant": "There are infinitely many numeric arguments and four presence combinations; planners swap cost and reward freely, so the identity must hold for all of them.", "anchors": ["skdecide/core.py: TransitionValue.__init__"]}
{"id": "C02", "title": "Automatic casting of values between domain and solver shapes is faithful", "statement": "Casting a value from a plain shape to a container shape (list, memory, agent dictionary) and back returns the same value; casting between two containers of the same kind applies the element cast position by position, keeping order, length and keys; casting a memory or a list to a plain value returns the element the rest of the framework treats as current (the most recent one).", "quantifier": "every value, every nesting of list / memory / agent-dictionary / optional shapes, every element", "why_tests_cant": "Shapes nest to any depth and containers have any length, so the number of casts is unbounded.", "anchors": ["skdecide/core.py: cast_dict", "skdecide/core.py: cast", "skdecide/utils.py: rollout"]}
{"id": "C03", "title": "Casting an outcome never changes its termination flag or loses an agent", "statement": "When an environment or transition outcome is built with a dictionary of agents, the value and info it exposes by default have exactly the same agents; casting the outcome casts observation, value and info and leaves termination as it was.", "quantifier": "every agent dictionary, every optional value/info, every cast", "why_tests_cant": "The agent set is arbitrary and defaults are filled per agent.", "anchors": ["skdecide/core.py: EnvironmentOutcome", "skdecide/core.py: TransitionOutcome"]}
{"id": "C04", "title": "Casting or sampling a discrete distribution never invents an outcome", "statement": "A discrete distribution only ever samples one of its listed elements (raising an error when it has none); casting the distribution keeps the probabilities position by position and maps every element; the total mass is unchanged.", "quantifier": "every list of (element, probability) pairs, every cast function and every random draw", "why_tests_cant": "The list, the draw and the cast are arbitrary.", "anchors": ["skdecide/core.py: DiscreteDistribution", "skdecide/core.py: SingleValueDistribution"]}
{"id": "C05", "title": "The memory handed to the transition function is the most recent history", "statement": "After any number of steps from a reset, the memory of a domain with history length n contains exactly the min(n, steps+1) most recent states in order, oldest first; for a Markovian domain it is the current state; for an unbounded-history domain it is the whole history since reset.", "quantifier": "every sequence of states produced by the dynamics, every history length including unbounded and zero", "why_tests_cant": "Histories of arbitrary length and every history bound.", "anchors": ["skdecide/builders/domain/dynamics.py: Environment._step", "skdecide/builders/domain/dynamics.py: Environment._set_memory", "skdecide/builders/domain/memory.py", "skdecide/builders/domain/initialization.py: Initializable._reset"]}
{"id": "C06", "title": "A rollout episode is a faithful record of the run", "statement": "A rollout episode performs at most max_steps steps, stops right after the first terminal outcome and never before; the recorded observations are one more than the recorded actions and values; each recorded observation is the one returned by the step taken with the action recorded at the same position, and each action is what the solver chose for the preceding observation.", "quantifier": "every environment behaviour, every policy, every step limit", "why_tests_cant": "Runs have unbounded length and environments are arbitrary.", "anchors": ["skdecide/utils.py: rollout_episode", "skdecide/utils.py: rollout"]}
{"id": "C07", "title": "A rollout runs the number of episodes that was asked for", "statement": "rollout with num_episodes = n runs n episodes, each starting from a reset (or from the given memory), whatever the other options are.", "quantifier": "every n, every combination of the other options", "why_tests_cant": "Every option combination and every n.", "anchors": ["skdecide/utils.py: rollout"]}
{"id": "C08", "title": "A solver is reported as compatible exactly when the domain has every required characteristic", "statement": "matching solvers against a domain returns, without duplicates or omissions and in registry order, exactly the candidates all of whose required characteristics the domain has; a candidate that refuses the domain by its own additional check is not returned.", "quantifier": "every set of candidates, every requirement list, every domain characteristic set", "why_tests_cant": "Arbitrary registries and characteristic hierarchies.", "anchors": ["skdecide/utils.py: match_solvers", "skdecide/solvers.py: Solver.check_domain", "skdecide/solvers.py: Solver.get_domain_requirements"]}
{"id": "C09", "title": "Parallel domain calls: every request gets its own result exactly once", "statement": "With several domain workers, a call is only ever launched on a worker that is not busy, the result read back for a job is the result of the call launched for that job, and after reading the worker is free again; no interleaving of launches and reads makes two jobs share a worker.", "quantifier": "every number of workers, every interleaving of launches, completions and reads", "why_tests_cant": "Interleavings are unbounded; races do not reproduce in tests.", "anchors": ["skdecide/domains.py: ParallelDomain", "skdecide/domains.py: PipeParallelDomain"]}
{"id": "C10", "title": "Shared-memory parallel domain: values of one worker never overwrite values of another", "statement": "The shared-memory registers assigned to different workers, and to different arguments of one call, never overlap, and a value written by the caller is read at the same position by the worker; the same holds for results written by the worker.", "quantifier": "every proxy layout, every number of workers, every argument list", "why_tests_cant": "The layout arithmetic ranges over all type tables and worker counts.", "anchors": ["skdecide/domains.py: ShmParallelDomain", "skdecide/domains.py: _shm_launch_domain_server_"]}
{"id": "C11", "title": "Scheduling state: every task is in exactly one of remaining, ongoing, paused, complete", "statement": "Along every simulated trajectory of a scheduling domain, each task is, at every point, in exactly one of the sets remaining / ongoing / paused / complete, no task is created or lost, and a completed task stays completed.", "quantifier": "every action sequence (valid or not), every duration and availability function, every reachable state", "why_tests_cant": "The state graph is exponential and trajectories are unbounded.", "anchors": ["skdecide/builders/scheduling/scheduling_domains.py: SchedulingDomain._get_next_state", "skdecide/builders/scheduling/scheduling_domains.py: update_start_tasks", "skdecide/builders/scheduling/scheduling_domains.py: update_complete_tasks", "skdecide/builders/scheduling/scheduling_domains.py: update_pause_tasks", "skdecide/builders/scheduling/scheduling_domains.py: update_resume_tasks"]}
{"id": "C12", "title": "Scheduling: no task starts before all its predecessors are complete", "statement": "A task proposed as startable has all its direct predecessors complete in the state, is itself still remaining, and if only applicable actions are played then along the whole trajectory every started task started after all its predecessors were complete.", "quantifier": "every precedence graph, every trajectory of applicable actions", "why_tests_cant": "All graphs and all trajectories.", "anchors": ["skdecide/builders/scheduling/scheduling_domains.py: task_possible_to_launch_precedence", "skdecide/builders/scheduling/scheduling_domains.py: get_possible_starting_tasks", "skdecide/builders/scheduling/scheduling_domains.py: check_if_action_can_be_started"]}
{"id": "C13", "title": "Scheduling: renewable resources are never over-used and are given back", "statement": "If only actions that pass the domain's own applicability check are played, the amount of each renewable resource in use never exceeds the amount available when capacities do not shrink; the amount in use equals the sum of the needs of the ongoing tasks; after a task completes its resources are released.", "quantifier": "every resource, every trajectory of applicable actions, tasks of every duration including zero", "why_tests_cant": "Accounting errors show up only on specific interleavings of start, pause, complete.", "anchors": ["skdecide/builders/scheduling/scheduling_domains.py: update_start_tasks", "skdecide/builders/scheduling/scheduling_domains.py: update_complete_tasks", "skdecide/builders/scheduling/scheduling_domains.py: update_complete_dummy_tasks", "skdecide/builders/scheduling/scheduling_domains.py: update_resource_availability"]}
{"id": "C14", "title": "Scheduling: a started non-preempted task completes exactly when its duration has elapsed", "statement": "In a deterministic scheduling domain, a task of duration d >= 1 started at time t and never paused is ongoing at every time strictly before t+d and complete at time t+d, its recorded start is t and its recorded end is t+d.", "quantifier": "every duration, every start time, every number of other tasks", "why_tests_cant": "All durations and all interleavings with other tasks.", "anchors": ["skdecide/builders/scheduling/scheduling_domains.py: update_progress", "skdecide/builders/scheduling/scheduling_domains.py: update_complete_tasks", "skdecide/builders/scheduling/scheduling_domains.py: update_time"]}
{"id": "C15", "title": "Scheduling: time never goes backwards and only advances when requested", "statement": "The clock of a scheduling state advances by exactly one when the action asks for time progress and is unchanged otherwise, whatever the rest of the action is.", "quantifier": "every state and action", "why_tests_cant": "All states and actions.", "anchors": ["skdecide/builders/scheduling/scheduling_domains.py: SchedulingDomain._get_next_state", "skdecide/builders/scheduling/scheduling_domains.py: update_time"]}
{"id": "C16", "title": "Schedule-following policies only return actions the domain accepts", "statement": "Each priority-rule policy (follow Gantt, precedence ready, ready, strict, time freedom, index freedom) returns either a start action that the domain's applicability check accepts in that state for a task whose predecessors are all complete, or a pure time-progress action; it picks the first such task in priority order.", "quantifier": "every state, permutation, schedule and mode choice", "why_tests_cant": "All permutations and states.", "anchors": ["skdecide/hub/solver/sgs_policies/sgs_policies.py"]}
{"id": "C17", "title": "Knapsack dynamic programming returns an optimal feasible packing", "statement": "The packing returned by the dynamic-programming knapsack solver fits in the capacity, its reported value and weight are those of the packing, and no feasible packing has a larger value.", "quantifier": "every list of items with non-negative integer weights and every capacity", "why_tests_cant": "Optimality quantifies over exponentially many packings for each of infinitely many instances.", "anchors": ["skdecide/builders/discrete_optimization/knapsack/solvers/dyn_prog_knapsack.py: KnapsackDynProg.solve"]}
{"id": "C18", "title": "Knapsack evaluation and satisfiability agree with the packing", "statement": "The value reported for a packing is the sum of the values of the taken items, the violation is the amount by which the weight exceeds the capacity (zero exactly when the packing is feasible), and satisfiability is true exactly when it fits; this remains so after every sequence of in-place bit-flip moves and their undo.", "quantifier": "every instance, packing and move sequence", "why_tests_cant": "Cached value/weight are updated incrementally along unbounded move sequences.", "anchors": ["skdecide/builders/discrete_optimization/knapsack/knapsack_model.py: KnapsackModel", "skdecide/builders/discrete_optimization/knapsack/mutation/mutation_knapsack.py: BitFlipMoveKP", "skdecide/builders/discrete_optimization/knapsack/mutation/mutation_knapsack.py: KnapsackMutationSingleBitFlip"]}
{"id": "C19", "title": "Greedy knapsack returns a feasible packing with correctly reported value", "statement": "The greedy knapsack solver returns, for every instance, a packing within capacity, with value and weight equal to the sums over the taken items, and no skipped item of the traversal would still have fitted when it was considered.", "quantifier": "every item list and capacity, including items heavier than the capacity", "why_tests_cant": "All instances.", "anchors": ["skdecide/builders/discrete_optimization/knapsack/solvers/greedy_solvers.py: greedy_using_queue", "skdecide/builders/discrete_optimization/knapsack/solvers/greedy_solvers.py: GreedyBest"]}
{"id": "C20", "title": "Permutation moves keep permutations permutations", "statement": "Applying a shuffle, partial-shuffle, swap or two-opt move to a permutation gives a permutation of the same elements.", "quantifier": "every permutation, every move parameter and random choice", "why_tests_cant": "All lengths and all random draws.", "anchors": ["skdecide/builders/discrete_optimization/generic_tools/mutations/permutation_mutations.py"]}
{"id": "C21", "title": "Undoing a local move restores the solution", "statement": "For every local move offered by the library (bit flip, shuffle, swaps, two-opt), applying it and then backtracking gives back the original solution.", "quantifier": "every solution, every move parameter", "why_tests_cant": "All solutions and all move lists; the failure only appears for overlapping swaps.", "anchors": ["skdecide/builders/discrete_optimization/generic_tools/mutations/permutation_mutations.py: ShuffleMove, SwapsLocalMove, TwoOptMove", "skdecide/builders/discrete_optimization/generic_tools/mutations/mutation_bool.py: BitFlipMove"]}
{"id": "C22", "title": "A result store reports the best solution it was given", "statement": "After any sequence of additions to a result store, the best solution reported has a fitness at least as good (for the declared optimisation direction) as every solution ever added, whatever the size limit of the store.", "quantifier": "every sequence of (solution, fitness) additions, both directions, every size limit", "why_tests_cant": "Eviction depends on the whole history.", "anchors": ["skdecide/builders/discrete_optimization/generic_tools/result_storage/result_storage.py: ResultStorage"]}
{"id": "C23", "title": "A Pareto front contains exactly the non-dominated points", "statement": "After any sequence of added points a Pareto front contains exactly those added points that no added point dominates; the result does not depend on the insertion order (up to ordering).", "quantifier": "every sequence of fitness vectors of equal size", "why_tests_cant": "Insertion/removal history is unbounded.", "anchors": ["skdecide/builders/discrete_optimization/generic_tools/result_storage/result_storage.py: ParetoFront", "skdecide/builders/discrete_optimization/generic_tools/result_storage/multiobj_utils.py: TupleFitness"]}
{"id": "C24", "title": "Multi-objective fitness comparison is Pareto dominance", "statement": "One fitness vector is greater than another exactly when it is at least as good in every coordinate and strictly better in one; strict comparison is irreflexive, asymmetric and transitive; 'greater or equal' holds exactly when it is not dominated.", "quantifier": "every pair/triple of equal-length vectors", "why_tests_cant": "All vectors.", "anchors": ["skdecide/builders/discrete_optimization/generic_tools/result_storage/multiobj_utils.py: TupleFitness"]}
{"id": "C25", "title": "Local search never returns something worse than what it has seen", "statement": "Hill climbing and simulated annealing return a result whose best fitness is at least as good as the start and as every solution accepted during the search, in the optimisation direction of the problem.", "quantifier": "every problem, every mutation, every random draw, every iteration budget, both directions", "why_tests_cant": "Runs are arbitrarily long and random.", "anchors": ["skdecide/builders/discrete_optimization/generic_tools/ls/hill_climber.py: HillClimber.solve", "skdecide/builders/discrete_optimization/generic_tools/ls/simulated_annealing.py: SimulatedAnnealing.solve", "skdecide/builders/discrete_optimization/generic_tools/ls/local_search.py: RestartHandler"]}
{"id": "C26", "title": "Serial schedule generation produces a feasible schedule whenever it claims feasibility", "statement": "Whenever serial schedule generation from a priority list reports a feasible schedule, that schedule contains each activity exactly once with the duration of its mode, respects every precedence and never uses more of a resource than available at any time.", "quantifier": "every instance (acyclic), every permutation and mode assignment, constant or time-varying capacities", "why_tests_cant": "All instances and permutations; resource profiles are checked at every time point.", "anchors": ["skdecide/builders/discrete_optimization/rcpsp/rcpsp_model.py: RCPSPSolution.generate_schedule_from_permutation_serial_sgs"]}
{"id": "C27", "title": "Serial schedule generation starts each activity as early as its priority allows", "statement": "Each activity is placed at the earliest time at which its predecessors (already placed) have finished and its resources are available throughout its duration, given the activities placed before it.", "quantifier": "every instance and permutation", "why_tests_cant": "All earlier times must be excluded for each activity.", "anchors": ["skdecide/builders/discrete_optimization/rcpsp/rcpsp_model.py: RCPSPSolution.generate_schedule_from_permutation_serial_sgs"]}
{"id": "C28", "title": "RCPSP satisfy accepts a schedule exactly when it is feasible", "statement": "The problem's satisfy check returns true exactly when all activities are scheduled, every precedence is respected, renewable usage never exceeds capacity at any time and non-renewable totals do not exceed capacity.", "quantifier": "every instance and every schedule", "why_tests_cant": "All schedules, all time points.", "anchors": ["skdecide/builders/discrete_optimization/rcpsp/rcpsp_model.py: RCPSPModel.satisfy"]}
{"id": "C29", "title": "Critical path method computes longest-path dates", "statement": "The earliest start of an activity is the length of the longest chain of predecessors; the latest finish is the largest value that does not delay the project; earliest never exceeds latest; no precedence-feasible schedule starts an activity earlier; the reported critical path has total duration equal to the makespan.", "quantifier": "every acyclic project network with a common source and sink", "why_tests_cant": "All graphs and all chains.", "anchors": ["skdecide/builders/discrete_optimization/rcpsp/solver/cpm.py: CPM.run_classic_cpm"]}
{"id": "C30", "title": "TSP permutation encodings convert back and forth without loss", "statement": "Converting a tour given in original node indices to its zero-based encoding and back (or the other way round) gives the same tour.", "quantifier": "every instance (node count, start, end) and every permutation", "why_tests_cant": "All instances and permutations.", "anchors": ["skdecide/builders/discrete_optimization/tsp/tsp_model.py: TSPModel.convert_perm_from0_to_original_perm", "skdecide/builders/discrete_optimization/tsp/tsp_model.py: TSPModel.convert_original_perm_to_perm_from0"]}
{"id": "C31", "title": "TSP length bookkeeping is exact under local moves", "statement": "The length stored with a tour is the sum of the lengths of its legs, the per-leg list matches the legs in order, and after a two-opt or swap move the incrementally updated length and legs equal those recomputed from scratch.", "quantifier": "every tour, every symmetric distance, every move", "why_tests_cant": "All tours and moves; incremental updates have boundary cases at both ends.", "anchors": ["skdecide/builders/discrete_optimization/tsp/tsp_model.py: compute_length", "skdecide/builders/discrete_optimization/tsp/tsp_model.py: compute_length_np", "skdecide/builders/discrete_optimization/tsp/mutation/mutation_tsp.py: Mutation2Opt, SwapTSPMove"]}
{"id": "C32", "title": "Graph colouring: violations, feasibility and renumbering agree", "statement": "A colouring is accepted exactly when no edge has equal end colours, exactly when the violation count is zero; renumbering colours by first appearance keeps which vertices share a colour, keeps the number of colours, and uses colours 0..k-1 in order of first appearance.", "quantifier": "every graph and every colouring", "why_tests_cant": "All graphs and colourings.", "anchors": ["skdecide/builders/discrete_optimization/coloring/coloring_model.py: ColoringProblem", "skdecide/builders/discrete_optimization/coloring/coloring_model.py: transform_color_values_to_value_precede"]}
{"id": "C33", "title": "Facility location: an accepted assignment overloads no facility", "statement": "An assignment of customers to facilities is accepted exactly when the total demand assigned to each facility is at most its capacity; the reported setup cost counts each used facility once; the greedy solver's answer is always accepted.", "quantifier": "every instance and assignment", "why_tests_cant": "All assignments; overloads may be on any facility.", "anchors": ["skdecide/builders/discrete_optimization/facility/facility_model.py: FacilityProblem.evaluate, satisfy, evaluate_cost", "skdecide/builders/discrete_optimization/facility/solvers/greedy_solvers.py: GreedySolverFacility.solve"]}
{"id": "C34", "title": "Vehicle routing: greedy tours are disjoint, within capacity, and satisfy means a valid routing", "statement": "The constructive routing solution never serves a customer twice, never serves a depot as a customer, and never loads a vehicle above its capacity; a solution is accepted only if every customer is served.", "quantifier": "every instance", "why_tests_cant": "All instances.", "anchors": ["skdecide/builders/discrete_optimization/vrp/vrp_model.py: trivial_solution", "skdecide/builders/discrete_optimization/vrp/vrp_model.py: VrpProblem.satisfy", "skdecide/builders/discrete_optimization/vrp/vrp_model.py: compute_length"]}
{"id": "C35", "title": "Lazy A* returns an executable path to a goal", "statement": "When lazy A* produces a policy, following it from the initial state leads through transitions of the domain to a goal state, and its stored values are the costs-to-go along that path; when no goal is reachable it stops without a policy.", "quantifier": "every finite deterministic domain, heuristic and weight", "why_tests_cant": "All graphs and heuristics.", "anchors": ["skdecide/hub/solver/lazy_astar/lazy_astar.py: LazyAstar._solve_domain"]}
{"id": "C36", "title": "Lazy A* is optimal with a consistent heuristic", "statement": "With non-negative costs, weight at most one and a heuristic that is consistent and zero at goals, the path returned has minimum total cost among all paths from the initial state to any goal.", "quantifier": "every finite deterministic domain with non-negative costs, every consistent heuristic", "why_tests_cant": "Optimality quantifies over all paths.", "anchors": ["skdecide/hub/solver/lazy_astar/lazy_astar.py: LazyAstar._solve_domain"]}
{"id": "C37", "title": "Learning real-time A* keeps admissible values", "statement": "If the initial heuristic never overestimates the cost to the goal, then after any number of trials no stored value overestimates it, and a stored value never decreases when the heuristic is consistent.", "quantifier": "every deterministic domain with non-negative costs, every number of trials and random tie-breaking", "why_tests_cant": "Unbounded trials.", "anchors": ["skdecide/hub/solver/lrtastar/lrtastar.py: LRTAstar.doTrial"]}
{"id": "C38", "title": "Simple greedy picks the best immediate reward", "statement": "The simple greedy solver returns an applicable action whose expected immediate reward is at least that of every applicable action.", "quantifier": "every state and finite action set", "why_tests_cant": "All action sets and distributions.", "anchors": ["skdecide/hub/solver/simple_greedy/simple_greedy.py: SimpleGreedy._get_next_action"]}
{"id": "C39", "title": "Grid and maze moves stay inside the world", "statement": "From any legal cell every action leads to a legal cell at distance at most one; the cost is positive; the cell is unchanged exactly when the move is blocked.", "quantifier": "every maze/grid shape, every cell and action", "why_tests_cant": "All maze layouts.", "anchors": ["skdecide/hub/domain/maze/maze.py: Maze", "skdecide/hub/domain/simple_grid_world/simple_grid_world.py: SimpleGridWorld"]}
{"id": "C40", "title": "Mastermind scoring is the classical black/white peg score", "statement": "The score of a guess against a hidden code has as first component the number of exact matches and as second the number of further colour matches counted with multiplicity; the score is symmetric in guess and code, and all-exact holds exactly when they are equal; every score lies in the declared observation space.", "quantifier": "every number of positions and colours, every guess and code", "why_tests_cant": "All codes and guesses of all sizes.", "anchors": ["skdecide/hub/domain/mastermind/mastermind.py: MasterMind._calc_score"]}
{"id": "C41", "title": "Rock-paper-scissors is zero-sum and lasts the declared number of moves", "statement": "In every round the two rewards are opposite, and the game terminates exactly when the number of rounds reaches the maximum.", "quantifier": "every pair of moves and every round count", "why_tests_cant": "All histories.", "anchors": ["skdecide/hub/domain/rock_paper_scissors/rock_paper_scissors.py"]}
{"id": "C42", "title": "Enumerable spaces convert to indices and back without loss", "statement": "For list and enum spaces, converting members to indices or JSON names and back returns the same members; membership, enumeration and sampling agree.", "quantifier": "every element list, including duplicates, and every sample list", "why_tests_cant": "All element lists.", "anchors": ["skdecide/hub/space/gym/gym.py: EnumSpace, ListSpace"]}
{"id": "C43", "title": "Bound constraints test the inequality they declare", "statement": "A bound constraint built with an inequality and a bound accepts a transition exactly when the evaluated quantity satisfies that inequality with the bound; the strict and non-strict variants differ exactly at the bound.", "quantifier": "every quantity, bound and inequality", "why_tests_cant": "All numbers.", "anchors": ["skdecide/core.py: BoundConstraint"]}
{"id": "C44", "title": "Aggregated objectives are consistent between solution and dictionary evaluation", "statement": "Evaluating a solution gives the same aggregate as aggregating its evaluation dictionary, the aggregate is the declared weighted sum, and in the aggregate a solution better in one objective and equal in the others is ranked better for the declared sense and sign of the weight.", "quantifier": "every objective dictionary, weight list and handling mode", "why_tests_cant": "All dictionaries.", "anchors": ["skdecide/builders/discrete_optimization/generic_tools/do_problem.py: build_evaluate_function_aggregated", "skdecide/builders/discrete_optimization/generic_tools/do_problem.py: get_default_objective_setup"]}
{"id": "C45", "title": "Task duration distributions are well formed", "statement": "A uniformly distributed bounded task duration has probabilities that are equal and sum to one over exactly the integers from lower to upper bound; the bounds reported for an enumerable distribution contain its support; a sampled duration is remembered and returned again until resampled.", "quantifier": "every bound pair, every finite distribution, every sampling sequence", "why_tests_cant": "All bounds and histories.", "anchors": ["skdecide/builders/scheduling/task_duration.py"]}
{"id": "C46", "title": "Mutating a vector of modes keeps every mode valid", "statement": "The mode mutation keeps the length of the vector, gives every changed position a value between 1 and the number of modes declared for that position, leaves the other positions alone, and its move restores the previous vector.", "quantifier": "every vector, every number of modes per position, every random draw", "why_tests_cant": "All vectors and draws.", "anchors": ["skdecide/builders/discrete_optimization/generic_tools/mutations/mutation_integer.py: MutationIntegerSpecificArrity.mutate", "skdecide/builders/discrete_optimization/generic_tools/do_mutation.py: LocalMoveDefault"]}
{"id": "C47", "title": "The sorted heap of a result store starts with the best fitness", "statement": "After any sequence of additions, the finalised heap of a result store is the list of the best fitnesses given to it (as many as the limit allows), best first.", "quantifier": "every sequence of additions, both directions, every size limit", "why_tests_cant": "All addition sequences.", "anchors": ["skdecide/builders/discrete_optimization/generic_tools/result_storage/result_storage.py: ResultStorage.add_solution, finalize"]}
{"id": "C48", "title": "Scheduling: the goal is reached exactly when every task that exists is complete", "statement": "A scheduling state is a goal exactly when every task available under its conditions is complete; in particular no available conditional task is left undone at a goal.", "quantifier": "every trajectory, every conditional-task structure", "why_tests_cant": "Needs a condition that appears in the very step that completes the last task.", "anchors": ["skdecide/builders/scheduling/scheduling_domains.py: SchedulingDomain._get_goals_", "skdecide/builders/scheduling/scheduling_domains.py: update_conditional_tasks_uncertain"]}
{"id": "C49", "title": "Scheduling: a start accepted by the domain's check does start the task", "statement": "When the domain's own check accepts the start of a task that has not started, applying the action never raises: the task leaves the remaining tasks and is ongoing in the requested mode (complete if its duration is zero), its start is recorded at the present time and the clock does not move.", "quantifier": "every domain, state, task, mode and drawn duration", "why_tests_cant": "The check and the update are separate functions that walk the same dictionaries; an example run only shows one accepted start.", "anchors": ["skdecide/builders/scheduling/scheduling_domains.py: check_if_action_can_be_started", "skdecide/builders/scheduling/scheduling_domains.py: update_start_tasks", "skdecide/builders/scheduling/scheduling_domains.py: update_complete_dummy_tasks"]}
{"id": "C50", "title": "Manhattan distance never overestimates on mazes and is exact on grids", "statement": "No sequence of moves in a maze costs less than the Manhattan distance between its first and last cell; on the plain grid some sequence of moves costs exactly that distance.", "quantifier": "every maze, grid, pair of cells and sequence of moves", "why_tests_cant": "Needs all mazes and all paths; planners only remain optimal with the suggested heuristic if this holds.", "anchors": ["skdecide/hub/domain/maze/maze.py: Maze._get_next_state", "skdecide/hub/domain/maze/maze.py: Maze._get_transition_value", "skdecide/hub/domain/simple_grid_world/simple_grid_world.py: SimpleGridWorld"]}
{"id": "C51", "title": "Weighted lazy A* is within its weight of the optimum", "statement": "With a consistent non-negative heuristic and a weight of at least one, the cost of the path returned by lazy A* is at most the weight times the cost of any path to a goal.", "quantifier": "every deterministic domain with non-negative costs, every consistent heuristic and weight", "why_tests_cant": "The bound speaks about all paths of all domains.", "anchors": ["skdecide/hub/solver/lazy_astar/lazy_astar.py: LazyAstar._solve_domain"]}
{"id": "C52", "title": "Learning real-time A* is optimal once its values settle", "statement": "On a domain without cycles, with a heuristic that never overestimates and is zero at goals and a depth limit no path reaches, if the solver stops because a trial changed no value, then following its policy from the start leads to a goal at the least possible cost.", "quantifier": "every such domain, heuristic and iteration limit", "why_tests_cant": "Relates the last of unboundedly many trials to all paths.", "anchors": ["skdecide/hub/solver/lrtastar/lrtastar.py: LRTAstar.doTrial", "skdecide/hub/solver/lrtastar/lrtastar.py: LRTAstar._solve_domain"]}
{"id": "C53", "title": "The Pareto hill climber returns exactly the non-dominated solutions it accepted", "statement": "The front returned by the Pareto hill climber contains exactly those solutions, among the start and all solutions accepted, that none of them dominates in the optimisation direction; every accepted solution is on the front or dominated by one on it.", "quantifier": "every problem with fitness vectors, every mutation and random draw, every iteration budget, both directions", "why_tests_cant": "Runs are arbitrarily long and random.", "anchors": ["skdecide/builders/discrete_optimization/generic_tools/ls/hill_climber.py: HillClimberPareto.solve", "skdecide/builders/discrete_optimization/generic_tools/result_storage/result_storage.py: ParetoFront"]}
{"id": "C54", "title": "Robust problems aggregate scenario by scenario", "statement": "Evaluating a solution on a robust problem gives, for exactly the objectives of the first scenario, the aggregation of that objective's values over all scenarios; the mean lies between the minimum and the maximum, both of which some scenario attains.", "quantifier": "every non-empty list of scenarios and every solution", "why_tests_cant": "All numbers of scenarios and values.", "anchors": ["skdecide/builders/discrete_optimization/generic_tools/do_problem.py: RobustProblem.evaluate", "skdecide/builders/discrete_optimization/generic_tools/do_problem.py: RobustProblem.aggregate_vector"]}
{"id": "C55", "title": "The greedy colouring solver returns an accepted colouring with the fewest colours among its strategies", "statement": "When at least one colouring strategy answers, the solver returns a colouring that the problem accepts, whose colours are numbered from zero without gaps, and that uses no more colours than any other strategy's answer; when no strategy answers it raises instead of returning.", "quantifier": "every graph and every list of strategy answers that are proper colourings", "why_tests_cant": "All graphs and all answers.", "anchors": ["skdecide/builders/discrete_optimization/coloring/solvers/greedy_coloring.py: GreedyColoring.solve"]}
{"id": "C56", "title": "TSP satisfy accepts exactly the complete tours", "statement": "The problem's acceptance test answers true exactly for permutations that visit every node other than start and end once.", "quantifier": "every instance and permutation", "why_tests_cant": "All instances and permutations.", "anchors": ["skdecide/builders/discrete_optimization/tsp/tsp_model.py: TSPModel.satisfy"]}
{"id": "C57", "title": "Continuing a partly executed RCPSP schedule keeps what has happened and schedules the rest feasibly", "statement": "Schedule generation from a current time keeps the times of completed tasks and the starts of running tasks, schedules every other activity once, not before the current time, with the duration of its mode, after its predecessors, and within what the completed and running tasks leave of each resource.", "quantifier": "every instance, permutation, mode assignment, current time, set of completed and of started tasks", "why_tests_cant": "Interleavings of completed, running and open tasks are too many to enumerate; the failures need a particular priority order.", "anchors": ["skdecide/builders/discrete_optimization/rcpsp/rcpsp_model.py: RCPSPSolution.generate_schedule_from_permutation_serial_sgs_2"]}
{"id": "C58", "title": "The permutation read off an RCPSP schedule is a permutation of the activities in order of start", "statement": "For every schedule of the activities 1 to n the derived permutation contains each number 0 to n-3 exactly once and lists the activities by non-decreasing start time.", "quantifier": "every schedule of all activities", "why_tests_cant": "All schedules including ties and any dictionary order.", "anchors": ["skdecide/builders/discrete_optimization/rcpsp/rcpsp_model.py: RCPSPSolution.generate_permutation_from_schedule"]}
{"id": "C59", "title": "Order of activities from the critical path method", "statement": "return_order_cpm lists every activity exactly once and puts every activity before all its successors.", "quantifier": "every acyclic project network with a common source and sink, after run_classic_cpm", "why_tests_cant": "Depends on ties between zero-duration activities and on the order of the dictionary.", "anchors": ["skdecide/builders/discrete_optimization/rcpsp/solver/cpm.py: CPM.return_order_cpm"]}
{"id": "C60", "title": "First time at which an activity fits", "statement": "get_first_time_to_do_one_task returns the first time, not before the earliest start, at which the resources suffice during the whole duration of the activity.", "quantifier": "every availability table, activity, duration and horizon", "why_tests_cant": "All availability tables; the code returns a time only when it is blocked.", "anchors": ["skdecide/builders/discrete_optimization/rcpsp/solver/cpm.py: CPM.get_first_time_to_do_one_task"]}
{"id": "C61", "title": "Scheduling: proposed actions never raise", "statement": "In a completely described scheduling domain with constant needs, playing any sequence of actions each taken from the applicable ones never raises, and the applicable actions of the state reached can be asked for.", "quantifier": "every such domain, every sequence of proposed actions, every draw of durations and availabilities", "why_tests_cant": "Sequences are unboundedly long and branch at each step; the failure needs a particular interleaving of pauses and starts.", "anchors": ["skdecide/builders/scheduling/scheduling_domains.py: SchedulingDomain._get_next_state", "skdecide/builders/scheduling/scheduling_domains.py: SchedulingActionSpace._get_elements"]}
{"id": "C62", "title": "Scheduling: eager play reaches the goal", "statement": "If every task fits the resources and a start is played whenever one is proposed, then after a number of steps bounded by the number of tasks and the longest duration all tasks are complete.", "quantifier": "every acyclic domain with renewable resources, every eager sequence of proposed actions, every draw of durations up to a bound", "why_tests_cant": "A liveness claim over all eager runs of all instances; blocking needs a particular leak of resources.", "anchors": ["skdecide/builders/scheduling/scheduling_domains.py: SchedulingDomain._get_next_state", "skdecide/builders/scheduling/scheduling_domains.py: SchedulingActionSpace._get_elements", "skdecide/builders/scheduling/scheduling_domains.py: SchedulingDomain._get_goals_"]}
{"id": "C63", "title": "Scheduling: exactly the possible actions are proposed", "statement": "Time progress is always proposed; pausing is proposed exactly for ongoing preemptive tasks; resuming exactly for paused tasks in their mode and starting for every task and mode that can start, unless more is in use than available; nothing else is proposed.", "quantifier": "every domain and state", "why_tests_cant": "All states, including those in which availability has shrunk below what is in use.", "anchors": ["skdecide/builders/scheduling/scheduling_domains.py: SchedulingActionSpace._get_elements", "skdecide/builders/scheduling/scheduling_domains.py: get_possible_starting_tasks", "skdecide/builders/scheduling/scheduling_domains.py: state_is_overconsuming"]}
{"id": "C64", "title": "C++ A*: finishes, finds a plan exactly when there is one, and reports it faithfully", "statement": "From an empty graph the solver always finishes on a finite state graph; it reports success exactly when some applicable sequence of actions leads to a goal, and then the best actions lead along an applicable plan to a goal, the best values along it are the costs still to pay, and no solution is defined off it.", "quantifier": "every deterministic domain, every heuristic, every order in which the queue gives its elements", "why_tests_cant": "Graphs, heuristics and queue orders are unbounded.", "anchors": ["cpp/src/hub/solver/astar.hh: AStarSolver::solve", "cpp/src/hub/solver/astar.hh: is_solution_defined_for", "cpp/src/hub/solver/astar.hh: get_best_action", "cpp/src/hub/solver/astar.hh: get_best_value"]}
{"id": "C65", "title": "C++ A*: optimal with a consistent heuristic", "statement": "With a heuristic that is consistent and zero at goals, the plan found costs no more than any other plan.", "quantifier": "every deterministic domain and consistent heuristic", "why_tests_cant": "The claim speaks about all plans; the failure needs a particular layout of the heap when a queued node is improved.", "anchors": ["cpp/src/hub/solver/astar.hh: AStarSolver::solve", "cpp/src/hub/solver/astar.hh: NodeCompare"]}
{"id": "C66", "title": "C++ A*: solving again agrees with a fresh solver", "statement": "Solving from a state after earlier solves gives a plan whenever a fresh solver does, with the same value, and leaves earlier answers right.", "quantifier": "every domain and every sequence of solves", "why_tests_cant": "Needs two solves whose searches meet; single runs never show it.", "anchors": ["cpp/src/hub/solver/astar.hh: AStarSolver::solve", "cpp/src/hub/solver/astar.hh: get_best_action"]}
{"id": "C67", "title": "LRTDP values never exceed the optimal cost", "statement": "If the heuristic never exceeds the optimal expected cost and is zero at goals, no value reported by the solver ever exceeds the optimal expected cost, and goals are reported with value zero.", "quantifier": "every Markov decision process with finitely many outcomes per action, every admissible heuristic, every sequence of calls, random draws and stopping times", "why_tests_cant": "Trials are random and unboundedly many; the failure needs a goal to be visited in a particular configuration.", "anchors": ["cpp/src/hub/solver/lrtdp.hh: LRTDPSolver::solve", "cpp/src/hub/solver/lrtdp.hh: trial", "cpp/src/hub/solver/lrtdp.hh: update", "cpp/src/hub/solver/lrtdp.hh: get_best_value"]}
{"id": "C68", "title": "LRTDP labels mean what they say and are final", "statement": "A labelled state that is no goal has an applicable best action whose expected cost is within epsilon of its value and all of whose outcomes are labelled; once labelled, a state keeps its label, value and action.", "quantifier": "every Markov decision process, sequence of calls, random draws and stopping times", "why_tests_cant": "Labels depend on the order in which states are pushed during random trials; the failure needs the depth limit to be reached inside a check.", "anchors": ["cpp/src/hub/solver/lrtdp.hh: check_solved", "cpp/src/hub/solver/lrtdp.hh: residual", "cpp/src/hub/solver/lrtdp.hh: trial"]}
{"id": "C69", "title": "LRTDP is near-optimal where labelled", "statement": "Following the best actions from a labelled state costs in expectation at most the optimal cost plus epsilon times the expected number of steps (epsilon over one minus the discount when costs are discounted).", "quantifier": "every Markov decision process with an admissible heuristic and every run of the solver", "why_tests_cant": "A claim about expectations over infinite runs of a policy.", "anchors": ["cpp/src/hub/solver/lrtdp.hh: check_solved", "cpp/src/hub/solver/lrtdp.hh: get_best_action"]}
{"id": "C70", "title": "LRTDP never crashes and answers for the state it was asked about", "statement": "Solving never dereferences a null pointer, and after a call that had time for a step the state of the call has an applicable best action.", "quantifier": "every Markov decision process, sequence of calls, random draws and stopping times", "why_tests_cant": "Crashes need a state without actions to be reached by a random trial.", "anchors": ["cpp/src/hub/solver/lrtdp.hh: LRTDPSolver::solve", "cpp/src/hub/solver/lrtdp.hh: greedy_action", "cpp/src/hub/solver/lrtdp.hh: pick_next_state", "cpp/src/hub/solver/lrtdp.hh: get_best_action"]}
{"id": "C71", "title": "AO* ends with an optimal policy on finite domains without cycles", "statement": "From a state that is no goal, solving a finite domain without cycles ends; afterwards a solution is defined for that state, following the best actions reaches a goal with exactly the answered value as expected cost, and with an admissible heuristic no policy is cheaper.", "quantifier": "every finite acyclic Markov decision process, admissible heuristic, number of tips per round, order of sets and sequence of calls", "why_tests_cant": "Optimality over all policies and ending for all domains cannot be enumerated; repeated calls share nodes.", "anchors": ["cpp/src/hub/solver/aostar.hh: AOStarSolver::solve", "cpp/src/hub/solver/aostar.hh: is_solution_defined_for", "cpp/src/hub/solver/aostar.hh: get_best_action", "cpp/src/hub/solver/aostar.hh: get_best_value"]}
{"id": "C72", "title": "AO* reports cycles exactly when there are some", "statement": "With cycle detection, solving ends on every finite domain, and it raises exactly if the explored part of the domain has a cycle; without detection it must only be used, and then ends, without cycles.", "quantifier": "every finite Markov decision process, number of tips per round and order of sets", "why_tests_cant": "Hanging cannot be observed by a test; false reports depend on the order of expansion and on shared successors.", "anchors": ["cpp/src/hub/solver/aostar.hh: AOStarSolver::solve", "cpp/src/hub/solver/aostar.hh: detect_cycles"]}
{"id": "C73", "title": "AO* does not crash", "statement": "Solving never dereferences a null pointer and never loops forever on a finite domain without cycles, from any state, goals included.", "quantifier": "every domain, start state and parameters", "why_tests_cant": "Crashes need dead ends, self-loops or goals as start states in combination with later calls.", "anchors": ["cpp/src/hub/solver/aostar.hh: AOStarSolver::solve", "cpp/src/hub/solver/aostar.hh: max_tip_expansions"]}
{"id": "C74", "title": "IW ends without crashing and tells an executable plan", "statement": "Solving a domain with non-negative costs on a fresh solver never crashes and, if finitely many states can be reached, ends. Afterwards either following the best actions from the start is applicable, avoids terminal states, reaches a goal and costs exactly what the values and the scores say, or no solution is defined anywhere.", "quantifier": "every domain, feature function, ordering of the queue and start state", "why_tests_cant": "Plans, parents and scores depend on the order in which nodes are generated, pruned and found again over several widths.", "anchors": ["cpp/src/hub/solver/iw.hh: IWSolver::solve", "cpp/src/hub/solver/iw.hh: WidthSolver::solve", "cpp/src/hub/solver/iw.hh: get_best_action", "cpp/src/hub/solver/iw.hh: get_best_value", "cpp/src/hub/solver/iw.hh: is_solution_defined_for"]}
{"id": "C75", "title": "IW gives up only when there is no plan", "statement": "When the features tell all states apart, a finished search without a plan means that no plan exists.", "quantifier": "every domain whose states have equally many features, at least one, and no two the same", "why_tests_cant": "A missing plan can only be noticed by searching the whole domain; pruning depends on all states seen before.", "anchors": ["cpp/src/hub/solver/iw.hh: IWSolver::solve", "cpp/src/hub/solver/iw.hh: novelty", "cpp/src/hub/solver/iw.hh: WidthSolver::solve"]}
{"id": "C76", "title": "Novelty is the size of the smallest new tuple, and problems of small width are solved", "statement": "The tuples of each size are enumerated completely and once; the novelty of a state is the size of its smallest tuple not seen before; a problem of width w is solved in a search of width at most w, at width w by a shortest plan; all plans found in one call have one width.", "quantifier": "every number of features and every history of states; every domain with unit costs and a chain of tuples", "why_tests_cant": "The guarantee of iterated width is about all domains of bounded width.", "anchors": ["cpp/src/hub/solver/iw.hh: generate_tuples", "cpp/src/hub/solver/iw.hh: novelty", "cpp/src/hub/solver/iw.hh: IWSolver::solve"]}
{"id": "C77", "title": "BFWS finds a plan exactly when there is one, and tells it faithfully", "statement": "Solving a domain on a fresh solver never crashes and, if finitely many states can be reached, ends. Afterwards either following the best actions from the start is applicable, reaches a goal and costs exactly what the values say, or no solution is defined anywhere and no sequence of applicable actions reaches a goal.", "quantifier": "every domain with any costs, feature function, heuristic, order of the queue and start state", "why_tests_cant": "A missing plan can only be noticed by searching the whole domain; parents change while nodes are in the queue.", "anchors": ["cpp/src/hub/solver/bfws.hh: BFWSSolver::solve", "cpp/src/hub/solver/bfws.hh: get_best_action", "cpp/src/hub/solver/bfws.hh: get_best_value", "cpp/src/hub/solver/bfws.hh: is_solution_defined_for"]}
{"id": "C78", "title": "BFWS follows a heuristic that can always be lowered straight to a goal", "statement": "If from every state that is no goal some action lowers the heuristic by at least one, and it is never negative, the solver ends after at most as many expansions as the heuristic value of the start, on domains of any size, and the plan is at most that long.", "quantifier": "every domain, finite or not, and every such heuristic", "why_tests_cant": "The domain may be infinite, and the claim depends on the heap giving a node of least heuristic although its entries change.", "anchors": ["cpp/src/hub/solver/bfws.hh: BFWSSolver::solve", "cpp/src/hub/solver/bfws.hh: NodeCompare"]}
{"id": "C79", "title": "BFWS novelty counts the features new for the heuristic value", "statement": "The novelty of a node is 0 for a heuristic value not met before; otherwise it is the number of features with a value that no earlier node of the same heuristic value had, or one more than the number of features if there is none; nodes of equal heuristic value are expanded in the order of their novelty.", "quantifier": "every history of evaluated nodes", "why_tests_cant": "Depends on the whole history of nodes evaluated before.", "anchors": ["cpp/src/hub/solver/bfws.hh: novelty", "cpp/src/hub/solver/bfws.hh: NodeCompare"]}
{"id": "C80", "title": "ILAO* values never exceed the optimal cost", "statement": "If the heuristic never exceeds the optimal expected cost, no value reported by the solver ever exceeds the optimal expected cost; goals met on the way are reported with value zero and no action, and actions reported are applicable.", "quantifier": "every Markov decision process with finitely many outcomes per action, every admissible heuristic, order of sets and sequence of calls", "why_tests_cant": "The search order, the number of sweeps and the sequence of calls are unbounded.", "anchors": ["cpp/src/hub/solver/ilaostar.hh: ILAOStarSolver::solve", "cpp/src/hub/solver/ilaostar.hh: update", "cpp/src/hub/solver/ilaostar.hh: expand", "cpp/src/hub/solver/ilaostar.hh: get_best_value"]}
{"id": "C81", "title": "ILAO* returns a complete near-optimal policy", "statement": "When solving from a state returns, this state has an applicable action, its value is consistent with the reported values up to the discounted epsilon, following the actions never leads to a state without one before a goal, and the expected cost of doing so is near the optimal one.", "quantifier": "every Markov decision process without dead ends, admissible heuristic, epsilon, order of sets and sequence of calls", "why_tests_cant": "A claim about all infinite runs of the policy; the failure needs a solved state whose successor changes its action in a later round.", "anchors": ["cpp/src/hub/solver/ilaostar.hh: ILAOStarSolver::solve", "cpp/src/hub/solver/ilaostar.hh: compute_best_solution_graph", "cpp/src/hub/solver/ilaostar.hh: value_iteration", "cpp/src/hub/solver/ilaostar.hh: compute_reachability", "cpp/src/hub/solver/ilaostar.hh: update_solved_bits"]}
{"id": "C82", "title": "ILAO* does not crash or hang", "statement": "Solving never dereferences a null pointer, and it returns for every start state and every admissible parameter.", "quantifier": "every Markov decision process, start state, sequence of calls and parameters", "why_tests_cant": "Hanging cannot be observed by a test; crashes need dead ends behind other states.", "anchors": ["cpp/src/hub/solver/ilaostar.hh: ILAOStarSolver::solve", "cpp/src/hub/solver/ilaostar.hh: depth_first_search", "cpp/src/hub/solver/ilaostar.hh: update_reachability", "cpp/src/hub/solver/ilaostar.hh: update_mfpt", "cpp/src/hub/solver/ilaostar.hh: update_solved_bits"]}
{"id": "C83", "title": "Greedy pile schedules are feasible", "statement": "Whatever the pile solver returns schedules every activity once, for its duration, after its predecessors, and never uses more of a renewable resource at a time, or of a non-renewable one in total, than there is; the permutation returned lists every inner activity once in the order of the starts.", "quantifier": "every project, rule, random draw and order of sets", "why_tests_cant": "Projects are unbounded and the draws random; over-use shows only at particular overlaps.", "anchors": ["skdecide/builders/discrete_optimization/rcpsp/solver/rcpsp_pile.py: PileSolverRCPSP.solve"]}
{"id": "C84", "title": "The pile solver ends, solves every solvable project and never waits for nothing", "statement": "The solver ends with a solution or an IndexError; it finds a solution whenever the precedences have no cycle, every activity fits alone and non-renewable resources suffice; every activity starts at the first time at which it is not held back; among the activities that can start at a time the one preferred by the rule is started first.", "quantifier": "every project, rule, random draw and order of sets", "why_tests_cant": "Endlessness cannot be observed; waiting for nothing must be excluded for every activity and time; simultaneous ends are rare.", "anchors": ["skdecide/builders/discrete_optimization/rcpsp/solver/rcpsp_pile.py: PileSolverRCPSP.solve", "skdecide/builders/discrete_optimization/rcpsp/solver/rcpsp_pile.py: GreedyChoice"]}
{"id": "C85", "title": "The executor turns a priority list into a feasible schedule", "statement": "A list with all activities of a solvable project gives a feasible schedule in which, among the activities that can start at a time, the first of the list is started; the solution reports the modes of the activities; the list of the caller is unchanged, and a list with an activity missing is rejected.", "quantifier": "every project, list and order of sets", "why_tests_cant": "All lists and projects; simultaneous ends are rare, and equal modes hide shifted ones.", "anchors": ["skdecide/builders/discrete_optimization/rcpsp/solver/rcpsp_pile.py: Executor.compute_schedule_from_priority_list"]}
{"id": "C86", "title": "The calendar pile solver keeps the calendars", "statement": "Whatever the pile solver for calendars returns schedules every activity once, for its duration, after its predecessors, and at every time keeps the capacity that the calendar of each resource gives for that time; non-renewable resources are not over-used.", "quantifier": "every project, calendar, rule, random draw and order of sets", "why_tests_cant": "Calendars and projects are unbounded; over-use shows only at particular overlaps.", "anchors": ["skdecide/builders/discrete_optimization/rcpsp/solver/rcpsp_pile.py: PileSolverRCPSP_Calendar.solve"]}
{"id": "C87", "title": "The calendar pile solver ends, solves every solvable project and never waits for nothing", "statement": "The solver ends and finds a schedule whenever there is one, and every activity starts at the first time at which the calendar and those started before leave room for it.", "quantifier": "every project, calendar, rule, random draw and order of sets", "why_tests_cant": "Endlessness cannot be observed; the failures need capacities that change at particular times or long horizons.", "anchors": ["skdecide/builders/discrete_optimization/rcpsp/solver/rcpsp_pile.py: PileSolverRCPSP_Calendar.solve"]}
{"id": "C88", "title": "MCTS returns and answers with an applicable action", "statement": "No call of solve fails; after at least one rollout of at least one step the root has a best action; a best action is applicable, has been tried and has the largest value among the tried ones, which is the value reported; asking where nothing was tried raises.", "quantifier": "every domain, sequence of calls, random draws and order of sets", "why_tests_cant": "Rollouts are random; failures need a terminal state or a dead end to be met by a simulation.", "anchors": ["cpp/src/hub/solver/mcts.hh: MCTSSolver::solve", "cpp/src/hub/solver/mcts.hh: DefaultTreePolicy", "cpp/src/hub/solver/mcts.hh: FullExpand", "cpp/src/hub/solver/mcts.hh: DefaultRolloutPolicy", "cpp/src/hub/solver/mcts.hh: get_best_action", "cpp/src/hub/solver/mcts.hh: is_solution_defined_for"]}
{"id": "C89", "title": "MCTS values stay within the discounted rewards, and rollouts are counted", "statement": "With rewards of size at most R and discount g below one, no value exceeds R/(1-g) in size; each rollout adds one to the visits of the root and no count ever falls; the value of a state is no more than what can be earned within max_depth steps.", "quantifier": "every domain, heuristic within the bounds, sequence of calls, random draws and order of sets", "why_tests_cant": "Values are means over unboundedly many random rollouts; the failure needs a cycle.", "anchors": ["cpp/src/hub/solver/mcts.hh: GraphBackup", "cpp/src/hub/solver/mcts.hh: DefaultRolloutPolicy", "cpp/src/hub/solver/mcts.hh: get_best_value"]}
{"id": "C90", "title": "MCTS tries every action, any number of times", "statement": "After one rollout for every action of the root and one for each of its outcomes all of them have been tried; with the UCB1 rule and any positive constant every action of the root is tried any number of times, given enough rollouts.", "quantifier": "every domain with bounded values, all random draws and orders of sets", "why_tests_cant": "A claim about the limit of random runs.", "anchors": ["cpp/src/hub/solver/mcts.hh: FullExpand", "cpp/src/hub/solver/mcts.hh: UCB1ActionSelector", "cpp/src/hub/solver/mcts.hh: DefaultTreePolicy"]}
{"id": "C91", "title": "MCTS chooses rightly one step before the end", "statement": "If every action of a state ends the episode with a certain outcome, two rollouts for each action suffice for the best action to be one with the largest reward.", "quantifier": "every such domain, all random draws and exploration constants", "why_tests_cant": "The failure needs rewards beyond terminal states, and then persists for every number of rollouts.", "anchors": ["cpp/src/hub/solver/mcts.hh: DefaultRolloutPolicy", "cpp/src/hub/solver/mcts.hh: BestQValueActionSelector"]}
{"id": "C92", "title": "Multi-skill schedules keep the project", "statement": "A complete schedule has every activity once, for the duration of its mode and before the horizon, after its predecessors, and keeps the capacity of renewable resources at all times and of non-renewable ones in total; each activity is placed by priority and starts at the first time at which resources and workers suffice; every schedule that fits the horizon can be produced.", "quantifier": "every multi-skill project, priority lists of activities and workers, and modes", "why_tests_cant": "Projects, calendars and lists are unbounded; over-use or waiting for nothing shows only at particular overlaps.", "anchors": ["skdecide/builders/discrete_optimization/rcpsp_multiskill/rcpsp_multiskill.py: sgs_multi_skill"]}
{"id": "C93", "title": "Multi-skill schedules are staffed", "statement": "The workers assigned to an activity are at work while it runs, work on nothing else at the time, are noted for exactly those needed skills that they have, and reach together the level needed of each skill (alone, when only one worker per activity is allowed); nobody else is held back.", "quantifier": "every multi-skill project, priority lists of activities and workers, and modes", "why_tests_cant": "Levels depend on who happens to be free when an activity is placed; lists of workers are unbounded.", "anchors": ["skdecide/builders/discrete_optimization/rcpsp_multiskill/rcpsp_multiskill.py: sgs_multi_skill"]}
{"id": "C94", "title": "The check accepts exactly the feasible multi-skill schedules", "statement": "The check answers true exactly if every activity is scheduled for its duration, after its predecessors, within the resources, by workers who have the skills they are used for, reach the levels, are at work and at one place at a time; it accepts what schedule generation makes; it does not raise.", "quantifier": "every multi-skill project and every solution", "why_tests_cant": "All schedules and assignments of workers; what is not checked cannot be seen from accepted examples.", "anchors": ["skdecide/builders/discrete_optimization/rcpsp_multiskill/rcpsp_multiskill.py: MS_RCPSPModel.satisfy"]}
{"id": "C95", "title": "The left shift keeps a multi-skill schedule valid and loses nothing", "statement": "Shifting a valid schedule never raises and gives one with the same modes, workers, activities and durations in which no activity is later, precedences hold, workers are at work and at one place at a time, no activity could start earlier given those shifted before it, and which the check still accepts.", "quantifier": "every multi-skill project and every valid schedule", "why_tests_cant": "Schedules and calendars are unbounded; broken capacities show only when a gap is closed.", "anchors": ["skdecide/builders/discrete_optimization/rcpsp_multiskill/solvers/lns_post_process_rcpsp.py: sgs_variant"]}
{"id": "C96", "title": "Generating a schedule from the order of a feasible one loses nothing", "statement": "The permutation of a feasible RCPSP schedule, given to serial schedule generation with the same modes, leads to a feasible schedule in which no activity starts later; for a schedule made by schedule generation it leads back to exactly the same times.", "quantifier": "every project with fixed or calendar capacities and every feasible schedule within the horizon", "why_tests_cant": "All feasible schedules of all projects; a wrong order of ties or a lost activity shows only for particular overlaps.", "anchors": ["skdecide/builders/discrete_optimization/rcpsp/rcpsp_model.py: generate_permutation_from_schedule", "skdecide/builders/discrete_optimization/rcpsp/rcpsp_model.py: generate_schedule_from_permutation_serial_sgs"]}
{"id": "C97", "title": "Encodings describe multi-skill solutions faithfully", "statement": "Turning a solution into an encoding gives an order of the activities by start, lists that name every worker, and the modes of the solution; generating the schedule anew never raises, gives an accepted solution and is never longer. Vectors that stand for an order, modes or lists of workers are evaluated as the solution they describe, for every registered encoding and on a copy of the same problem.", "quantifier": "every multi-skill project, solution and vector", "why_tests_cant": "Solutions, orders and lists are unbounded; lost limits and shifted modes show only when modes differ and more than one worker is needed.", "anchors": ["skdecide/builders/discrete_optimization/rcpsp_multiskill/rcpsp_multiskill.py: schedule_solution_to_variant", "skdecide/builders/discrete_optimization/rcpsp_multiskill/rcpsp_multiskill.py: MS_RCPSPSolution_Variant", "skdecide/builders/discrete_optimization/rcpsp_multiskill/rcpsp_multiskill.py: MS_RCPSPModel_Variant.evaluate_from_encoding", "skdecide/builders/discrete_optimization/rcpsp_multiskill/rcpsp_multiskill.py: MS_RCPSPModel_Variant.set_fixed_attributes", "skdecide/builders/discrete_optimization/rcpsp_multiskill/rcpsp_multiskill.py: MS_RCPSPModel.to_variant_model"]}
{"id": "C98", "title": "Skills as resources relax a multi-skill project", "statement": "The single-skill project built from a multi-skill one has a resource for every skill whose capacity at each time is what the workers then at work have of it together; everything else is kept, and every solution accepted in the multi-skill project is accepted there.", "quantifier": "every multi-skill project, solution and order of resources", "why_tests_cant": "Calendars, teams and schedules are unbounded; the wrong last position only shows when a calendar is longer than a resource row.", "anchors": ["skdecide/builders/discrete_optimization/rcpsp_multiskill/rcpsp_multiskill.py: MS_RCPSPModel.build_multimode_rcpsp_calendar_representative", "skdecide/builders/discrete_optimization/rcpsp/rcpsp_model.py: RCPSPModel.satisfy", "skdecide/builders/discrete_optimization/rcpsp_multiskill/rcpsp_multiskill.py: MS_RCPSPModel.satisfy"]}
{"id": "C99", "title": "Using a domain follows what it declares", "statement": "Whatever is drawn, a reset followed by steps never raises and gives states, observations, values and terminations that the declared distributions and functions allow for the recent history; every such run can be drawn; sampling from a memory gives the outcome of a step from it; every episode of a rollout from a given memory starts from that memory.", "quantifier": "every domain, memory kind, sequence of actions and draws", "why_tests_cant": "Runs and draws are unbounded; a memory object that is changed behind the caller only shows in the second episode.", "anchors": ["skdecide/builders/domain/dynamics.py: Environment._step", "skdecide/builders/domain/dynamics.py: Simulation._sample", "skdecide/builders/domain/dynamics.py: UncertainTransitions._state_sample", "skdecide/builders/domain/initialization.py: Initializable._reset", "skdecide/builders/domain/observability.py", "skdecide/utils.py: rollout"]}
{"id": "C100", "title": "Tests of actions and goals agree with the declared spaces", "statement": "An action is applicable, or an observation a goal, exactly when every agent has one in its space; questions without a memory are about the memory of the domain; the random walker only plays applicable actions; no event is enabled in a domain that only has actions.", "quantifier": "every space, joint action, memory", "why_tests_cant": "Joint actions and spaces are arbitrary; agents left out and events are rarely asked about.", "anchors": ["skdecide/builders/domain/events.py: Events._is_applicable_action_from", "skdecide/builders/domain/events.py: Actions._get_enabled_events_from", "skdecide/builders/domain/events.py: Events._is_action", "skdecide/builders/domain/goals.py: Goals._is_goal", "skdecide/core.py: EmptySpace", "skdecide/utils.py: rollout"]}
{"id": "C101", "title": "Cached characteristics are constant", "statement": "Action spaces, goals, constraints and initial states are computed once per domain: every later question gets the first answer, and always the right one if the method is constant.", "quantifier": "every sequence of questions by any number of domains", "why_tests_cant": "The cache is shared by all domains and has 128 places; tests use few domains.", "anchors": ["skdecide/builders/domain/initialization.py: DeterministicInitialized._get_initial_state", "skdecide/builders/domain/events.py: Events._get_action_space", "skdecide/builders/domain/goals.py: Goals._get_goals"]}
{"id": "C102", "title": "Following a feasible plan with the Gantt method replays it exactly", "statement": "Rolling out the Gantt policy that holds the start times and modes of a feasible plan, when durations and capacities are as planned, ends in a goal state at the plan's makespan and every task has started, ended and run in the mode as planned.", "quantifier": "every domain, feasible plan, capacities, iteration order of sets and step bound large enough", "why_tests_cant": "Plans, capacities and set orders are unbounded; tests follow the schedule of one instance.", "anchors": ["skdecide/hub/solver/sgs_policies/sgs_policies.py: next_action_follow_static_gantt", "skdecide/builders/scheduling/scheduling_domains.py", "skdecide/utils.py: rollout"]}
{"id": "C103", "title": "The termination test on non-renewable resources", "statement": "A scheduling state is given up exactly when some remaining task alone needs more of a non-renewable resource than is left in each of its modes; then the goal is lost; what is used of such a resource is the total need of the tasks started.", "quantifier": "every domain, proposed run, draw", "why_tests_cant": "Runs and amounts are unbounded; exhausting a non-renewable resource needs an unlucky run.", "anchors": ["skdecide/builders/scheduling/resource_renewability.py: all_tasks_possible", "skdecide/builders/scheduling/scheduling_domains.py: _is_terminal"]}
{"id": "C104", "title": "Methods that follow a list always finish", "statement": "Rolling out any of the five list methods with a permutation of the tasks ends with all tasks complete, within (D+1) steps per task, whatever durations up to D are drawn.", "quantifier": "every domain with renewable resources, permutation, schedule, draws", "why_tests_cant": "Durations, orders and capacities are unbounded; a policy that stalls only does so for particular draws.", "anchors": ["skdecide/hub/solver/sgs_policies/sgs_policies.py: next_action_sgs_first_task_precedence_ready", "skdecide/hub/solver/sgs_policies/sgs_policies.py: next_action_sgs_first_task_ready", "skdecide/hub/solver/sgs_policies/sgs_policies.py: next_action_sgs_strict", "skdecide/hub/solver/sgs_policies/sgs_policies.py: next_action_sgs_time_freedom", "skdecide/hub/solver/sgs_policies/sgs_policies.py: next_action_sgs_index_freedom", "skdecide/utils.py: rollout"]}
{"id": "C105", "title": "Domains and problems made from each other describe the same project", "statement": "A scheduling domain turned into a discrete-optimisation problem (or the reverse) keeps modes and durations, and a schedule of all tasks is accepted by the problem's check exactly when it is a feasible plan of the domain; a problem in the form in which the binding writes problems comes back unchanged.", "quantifier": "every completely described project with constant capacities, schedule and choice of modes", "why_tests_cant": "Projects and schedules are unbounded; tests convert a few benchmark files and do not compare the feasible sets.", "anchors": ["skdecide/hub/solver/do_solver/sk_to_do_binding.py: build_do_domain", "skdecide/hub/solver/do_solver/sk_to_do_binding.py: build_sk_domain", "skdecide/hub/domain/rcpsp/rcpsp_sk.py: MRCPSP", "skdecide/builders/scheduling/precedence.py", "skdecide/builders/scheduling/graph_toolbox.py"]}
{"id": "C106", "title": "Solving a domain through the binding and running the result", "statement": "When a domain is turned into a problem, schedule generation reports a feasible schedule and the policy made from it is run in the domain, the run ends in a goal state at the makespan, and the solution read from the last state has the modes and the times that were generated.", "quantifier": "every completely described project, priority list, choice of modes, iteration order of sets and step bound large enough", "why_tests_cant": "The whole chain over unbounded projects; tests run one solver on one instance and compare makespans.", "anchors": ["skdecide/hub/solver/do_solver/do_solver_scheduling.py: from_solution_to_policy", "skdecide/hub/solver/do_solver/sk_to_do_binding.py: build_do_domain", "skdecide/hub/solver/do_solver/sk_to_do_binding.py: from_last_state_to_solution", "skdecide/builders/discrete_optimization/rcpsp/rcpsp_model.py", "skdecide/utils.py: rollout"]}
{"id": "C107", "title": "Random durations for a project, and projects drawn from it", "statement": "Adding noise to the durations of a project gives distributions whose probabilities sum to 1 and whose values lie at most 10 from the given duration and above 0; the projects drawn from it are the given project with doubled horizon and durations from these distributions, every combination can be drawn, and feasible plans stay feasible.", "quantifier": "every completely described project, choice of tasks with noise, number of projects and draw", "why_tests_cant": "Durations, projects and draws are unbounded; tests build two instances and run them.", "anchors": ["skdecide/hub/domain/rcpsp/rcpsp_sk.py: build_stochastic_from_deterministic", "skdecide/hub/domain/rcpsp/rcpsp_sk.py: build_n_determinist_from_stochastic", "skdecide/hub/domain/rcpsp/rcpsp_sk.py: Stochastic_RCPSP", "skdecide/builders/scheduling/resource_renewability.py: RenewableOnly"]}
{"id": "C108", "title": "The linear program of the colouring solver", "statement": "Every feasible assignment of the 0-1 program built for a graph is read back as a proper colouring whose number of colours is at most the objective; every proper colouring with no more colours than the start solution is, up to renumbering, such an assignment with its number of colours as objective, also with the rows for cliques; so a best assignment gives a colouring with the least number of colours. The program can be built for every graph.", "quantifier": "every graph, start solution, list of cliques and assignment", "why_tests_cant": "Graphs and assignments are unbounded and the solvers need an external library; tests solve one instance.", "anchors": ["skdecide/builders/discrete_optimization/coloring/solvers/coloring_lp_solvers.py: ColoringLP.init_model", "skdecide/builders/discrete_optimization/coloring/solvers/coloring_lp_solvers.py: ColoringLP.retrieve_solutions", "skdecide/builders/discrete_optimization/coloring/solvers/coloring_lp_solvers.py: ColoringLP_MIP.init_model", "skdecide/builders/discrete_optimization/coloring/solvers/coloring_lp_solvers.py: ColoringLP_MIP.retrieve_solutions"]}
{"id": "C109", "title": "The linear program of the facility solvers", "statement": "Every feasible assignment of the 0-1 program built for a facility problem is read back as an assignment of every customer to a facility within the capacities, with the objective as its setup and transport cost; every such assignment allowed by the pruning is a feasible assignment of the program; a best assignment costs no more than any of these; without pruning the program finds the optimum. When an assignment within the capacities exists the pruned program has one too.", "quantifier": "every facility problem, pruning and assignment of the program", "why_tests_cant": "Problems and assignments are unbounded and the solvers need an external library; tests solve one instance.", "anchors": ["skdecide/builders/discrete_optimization/facility/solvers/facility_lp_solver.py: prune_search_space", "skdecide/builders/discrete_optimization/facility/solvers/facility_lp_solver.py: LP_Facility_Solver.init_model", "skdecide/builders/discrete_optimization/facility/solvers/facility_lp_solver.py: LP_Facility_Solver.retrieve", "skdecide/builders/discrete_optimization/facility/solvers/facility_lp_solver.py: LP_Facility_Solver_CBC.init_model", "skdecide/builders/discrete_optimization/facility/solvers/facility_lp_solver.py: LP_Facility_Solver_PyMip.init_model", "skdecide/builders/discrete_optimization/facility/solvers/facility_lp_solver.py: LP_Facility_Solver_PyMip.retrieve"]}
{"id": "C110", "title": "The linear program of the knapsack solvers", "statement": "Every feasible assignment of the 0-1 program built for a knapsack is read back as a packing that fits, with its value and weight, and every fitting packing is read from one; so a best assignment gives a fitting packing of the greatest value. In the large neighbourhood search, fixing decisions of the current packing leaves it feasible, so the next one fits, is at least as valuable and keeps these decisions.", "quantifier": "every list of items, capacity, assignment of the program, fitting packing and set of fixed decisions", "why_tests_cant": "Instances and fixed sets are unbounded and the solvers need an external library; tests solve one instance.", "anchors": ["skdecide/builders/discrete_optimization/knapsack/solvers/lp_solvers.py: LPKnapsackGurobi.init_model", "skdecide/builders/discrete_optimization/knapsack/solvers/lp_solvers.py: LPKnapsackGurobi.retrieve_solutions", "skdecide/builders/discrete_optimization/knapsack/solvers/lp_solvers.py: LPKnapsackGurobi.fix_decision", "skdecide/builders/discrete_optimization/knapsack/solvers/lp_solvers.py: LPKnapsack.init_model", "skdecide/builders/discrete_optimization/knapsack/solvers/lp_solvers.py: LPKnapsack.retrieve_solutions", "skdecide/builders/discrete_optimization/knapsack/solvers/lp_solvers.py: LPKnapsack.fix_decision"]}
{"id": "C111", "title": "The linear program for projects with one mode", "statement": "Every feasible assignment of the time-indexed program is read back as a plan: every task once, precedences kept, resources within the capacities at all times; every plan whose starts lie within the makespan of the start solution is such an assignment; so a best assignment gives a plan with the earliest start of the last task. The demands of a partial solution are added as rows.", "quantifier": "every project, start solution, partial solution and assignment", "why_tests_cant": "Projects and horizons are unbounded and the solver needs an external library; tests solve one benchmark file.", "anchors": ["skdecide/builders/discrete_optimization/rcpsp/solver/rcpsp_lp_solver.py: LP_RCPSP.init_model", "skdecide/builders/discrete_optimization/rcpsp/solver/rcpsp_lp_solver.py: LP_RCPSP.retrieve_solutions"]}
{"id": "C112", "title": "The linear program for projects with several modes", "statement": "Every feasible assignment of the time-indexed program is read back as schedule and modes that form a plan: every task once in one of its modes, precedences kept, renewable resources within the capacities (also calendars) at the times of the program, totals of non-renewable ones within the stock; such plans are accepted by the check of the problem; every plan within the times is such an assignment; a best assignment gives the earliest start of the last task; the demands of a partial solution are kept; a project with a plan has a feasible assignment.", "quantifier": "every project, horizon, partial solution and assignment", "why_tests_cant": "Projects, calendars and horizons are unbounded and the solver needs an external library; tests solve one benchmark file.", "anchors": ["skdecide/builders/discrete_optimization/rcpsp/solver/rcpsp_lp_solver.py: LP_MRCPSP.init_model", "skdecide/builders/discrete_optimization/rcpsp/solver/rcpsp_lp_solver.py: LP_MRCPSP.retrieve_solutions"]}
{"id": "C113", "title": "The iterative linear program for the travelling salesman", "statement": "Both graph builders give a graph with every edge in both directions; the pruned one always holds a tour. The program allows exactly the choices of edges that leave and enter every node once (start and end accordingly) and never go forth and back, and its objective is their length. The rows added for the components of an answer cut that answer off and no tour. An answer with one component is a tour. Whatever feasible answers come, the solver returns every inner node once with the exact length, and with best answers and enough rounds a tour no longer than any along the edges.", "quantifier": "every graph, start, end, distance function, sequence of answers and number of rounds", "why_tests_cant": "The answers come from an external library and the number of sets of components grows exponentially; tests solve one benchmark file.", "anchors": ["skdecide/builders/discrete_optimization/tsp/solver/solver_lp_iterative.py: LP_TSP_Iterative.init_model_cbc", "skdecide/builders/discrete_optimization/tsp/solver/solver_lp_iterative.py: LP_TSP_Iterative.solve", "skdecide/builders/discrete_optimization/tsp/solver/solver_lp_iterative.py: build_graph_pruned", "skdecide/builders/discrete_optimization/tsp/solver/solver_lp_iterative.py: build_the_cycles", "skdecide/builders/discrete_optimization/tsp/solver/solver_lp_iterative.py: rebuild_tsp_routine"]}
{"id": "C114", "title": "Exploring a deterministic domain", "statement": "With its limits given the depth-first explorer raises nothing; its graph has distinct reachable states, the start among them, true transitions with their attributes, for each state all actions or none, and its counters are those of the graph. Unless a limit is exceeded the graph has all the reachable states and all the transitions of those that are not goals; with finitely many states exploring ends. The domain made of it has the actions and next states of the one explored. Merging two graphs keeps the states of both and prefers the transitions of the first.", "quantifier": "every domain, start, limits and number of turns; every two graphs", "why_tests_cant": "Graphs grow with the domain and a missing transition only shows on a path that needs it; no test explores a domain.", "anchors": ["skdecide/hub/solver/graph_explorer/DFSExploration.py: DFSExploration.build_graph_domain", "skdecide/hub/solver/graph_explorer/FullSpaceExploration.py: FullSpaceExploration.build_graph_domain", "skdecide/hub/solver/graph_explorer/GraphDomain.py: GraphDomain.merge"]}
{"id": "C115", "title": "Exploring an uncertain domain", "statement": "With limits given exploring raises nothing. The states found are distinct and reachable with some probability, each with whether it is terminal and a goal; every recorded transition is one of the domain with its probability and cost. Unless a limit is exceeded all the reachable states are found, whatever the scores; every action with successors is recorded, and a state of the result is terminal exactly when it is terminal or a goal of the domain or has no action with successors. With finitely many states exploring ends. reachable_states gives exactly the states met going on from states that are not terminal.", "quantifier": "every domain, start, limits, score function and number of turns", "why_tests_cant": "The order of the heap depends on scores and a lost transition only shows as a wrong probability later; no test explores a domain.", "anchors": ["skdecide/hub/solver/graph_explorer/DFS_Uncertain_Exploration.py: DFSExploration.build_graph_domain", "skdecide/hub/solver/graph_explorer/FullSpaceExploration.py: reachable_states", "skdecide/hub/solver/graph_explorer/GraphDomain.py: GraphDomainUncertain"]}
{"id": "C116", "title": "Large neighbourhood search with a linear program", "statement": "solve_lns returns a store with exactly the solutions of the initial store and of all results, whose best one is at least as good as each of them. Every solve has exactly the constraints that the handler made of the result before it, none left over. With an exact solver and a handler that keeps the given solution no iteration is worse than the one before. There are at most nb_iteration_lns iterations and, without nb_iteration_no_improvement, only the clock ends the search before; iterations that only repeat the best fitness end it after nb_iteration_no_improvement + 1.", "quantifier": "every solver, handler, post-processing, initial store, number of iterations, patience and clock", "why_tests_cant": "A leftover constraint only makes later solves harder or worse, never wrong, so no test notices it.", "anchors": ["skdecide/builders/discrete_optimization/generic_tools/lns_mip.py: LNS_MILP.solve_lns"]}
{"id": "C117", "title": "Large neighbourhood search with a constraint solver", "statement": "solve_lns returns a store with exactly the solutions of the initial store and of all results, best one at least as good as all; it returns nothing only when the first iteration is skipped and no iteration has a result. Every child has exactly the constraints the handler makes of all solutions found before. With an exact solver and a handler that keeps the best solution every result is at least as good as everything before. The search ends before its last iteration only by the clock or after nb_iteration_no_improvement + 1 iterations in a row that brought nothing strictly better than all before, and then it does end.", "quantifier": "every child, handler, post-processing, initial store, number of iterations, patience and clock; children may fail", "why_tests_cant": "Failed solves are swallowed by a bare except, so a wrong counter or a lost solution never shows as an error.", "anchors": ["skdecide/builders/discrete_optimization/generic_tools/lns_cp.py: LNS_CP.solve_lns"]}
{"id": "C118", "title": "Neighbourhoods of the searches for facilities and colourings", "statement": "The rows that the constraint handlers add leave exactly the solutions of the program in which the customers drawn keep their facility, and the nodes drawn keep their colour unless it is the highest one. If the incumbent uses no pruned pair (its colours are below the number of colours of the program) it stays possible, and a best answer is at least as good as every solution that agrees with it on the draw.", "quantifier": "every problem, incumbent and draw, every pruning and number of colours", "why_tests_cant": "Fixing too much or too little is not an error: the search only finds worse solutions or leaves the neighbourhood.", "anchors": ["skdecide/builders/discrete_optimization/facility/solvers/facility_lp_lns_solver.py: ConstraintHandlerFacility", "skdecide/builders/discrete_optimization/coloring/solvers/coloring_lp_lns_solvers.py: ConstraintHandlerFixColorsGrb, ConstraintHandlerFixColorsPyMip"]}
{"id": "C119", "title": "Neighbourhoods of the searches for projects", "statement": "The rows of the interval handlers leave exactly the plans in which each task drawn that ends more than five before the makespan of the incumbent starts at most minus_delta before and plus_delta after its present start and not after the makespan; those of the fixed-start handler exactly the plans in which the tasks drawn keep their start. If the incumbent starts within the times of the program and the deltas are not negative it stays possible, and a best answer starts the last task no later than any plan of the neighbourhood. With several modes the incumbent is the shorter one of start solution and best solution.", "quantifier": "every project, incumbent, draw and pair of deltas", "why_tests_cant": "A window that is off by one excludes single plans; random draws hide it.", "anchors": ["skdecide/builders/discrete_optimization/rcpsp/solver/rcpsp_lp_lns_solver.py: ConstraintHandlerFixStartTime, ConstraintHandlerStartTimeInterval, ConstraintHandlerStartTimeIntervalMRCPSP"]}
{"id": "C120", "title": "Graph and answers of the solver RIW", "statement": "After any sequence of solve and get_best_action that return, no two nodes stand for the same state, an expanded node has exactly the applicable actions of its state as children, and each visited child has the true reward and outcome. get_best_action returns an applicable action exactly where is_solution_defined_for says so. After a search of a new solver each node can be reached in as many steps as its depth says, and none is deeper than the limit.", "quantifier": "every deterministic domain, all parameters, random draws, clock readings and set orders", "why_tests_cant": "The graph is private, and random rollouts differ between runs.", "anchors": ["cpp/src/hub/solver/riw.hh: WidthSolver::rollout, fill_child_node", "cpp/src/hub/solver/riw.hh: get_best_action, is_solution_defined_for, update_graph"]}
{"id": "C121", "title": "Novelty tests and stopping of RIW", "statement": "A state is novel at a width if one of its tuples was never seen, or is stored with a greater depth (new node), or with just this depth (known node); tuples keep their least depth. A search makes at most rollout_budget rollouts. If a new solver reports no solution then in the last width the start was solved within the budgets, states were pruned and no terminal state was visited.", "quantifier": "every feature vector, table, width, depth; every domain and run", "why_tests_cant": "Which states are pruned depends on the order of random rollouts.", "anchors": ["cpp/src/hub/solver/riw.hh: WidthSolver::novelty, generate_tuples", "cpp/src/hub/solver/riw.hh: WidthSolver::solve, rollout, update_node"]}
{"id": "C122", "title": "RIW returns on domains without circles", "statement": "If hashes tell states apart, there are no circles, each state has actions unless it is terminal, and no path from the start is longer than max_depth, then solve of a new solver returns: it neither throws nor goes on for ever.", "quantifier": "every such domain, all random draws, clock readings, budgets and set orders", "why_tests_cant": "Non-termination and exceptions depend on the random draws.", "anchors": ["cpp/src/hub/solver/riw.hh: WidthSolver::rollout, update_node, backup_values"]}
{"id": "C123", "title": "RIW is optimal on trees without pruning", "statement": "If hashes tell states apart, the states form a tree, each state has actions unless it is terminal, no path from the start is longer than max_depth and the discount is not negative, then a search of a new solver that ends before its budgets are consumed and prunes nothing gives the start the best discounted return of all plans as value, and the first action of a plan with that return as action. If one feature tells all states apart, nothing is pruned.", "quantifier": "every such domain, all random draws and set orders", "why_tests_cant": "Optimality over all plans, for every sequence of random draws, cannot be enumerated.", "anchors": ["cpp/src/hub/solver/riw.hh: WidthSolver::update_node, backup_values, rollout", "cpp/src/hub/solver/riw.hh: get_best_value, get_best_action"]}
{"id": "C124", "title": "construct_dict_policy collects exactly what the policy reaches", "statement": "When construct_dict_policy returns, the policy dictionary holds exactly the states that the policy reaches with a probability that is not zero and that are not terminal, each with the action of the policy; the successors are the outcomes of that action, and the predecessors of a state are exactly the states from which the policy may step to it. It raises exactly if a state that is left lists an outcome with probability zero only, with AssertionError, and it ends if the policy reaches finitely many states.", "quantifier": "every domain, policy and initial state", "why_tests_cant": "Reachability over every transition graph cannot be enumerated.", "anchors": ["skdecide/hub/solver/policy_evaluators/policy_evaluator.py: construct_dict_policy"]}
{"id": "C125", "title": "expected_costs_for_policy computes the expected costs", "statement": "With probabilities that add up to one and an initial state that is terminal if it is a goal, each value is the expected cost to the goal of a state from which the policy surely reaches the goal within finitely many steps, each such state that is reached has a value (an initial goal apart), and the function returns, whatever the order in which the set gives its states.", "quantifier": "every domain with finitely many states that are reached and without outcomes of probability zero, every policy and every order of the set", "why_tests_cant": "The values depend on all paths of the policy and on the iteration order of a set, which differs between runs.", "anchors": ["skdecide/hub/solver/policy_evaluators/policy_evaluator.py: expected_costs_for_policy, successor_value_is_known, compute_expected_cost_for_policy"]}
{"id": "C126", "title": "Rollout estimates are averages over all visits", "statement": "rollout_based_policy_estimation gives each state that is left in a rollout the average, over all visits in all rollouts, of the costs from the visit to the end of the rollout, its action by the policy and the predecessors and successors of the rollouts. If outcomes are certain and terminal states are goals, the values are the expected costs. The variant for scheduling gives the average time of the rollouts.", "quantifier": "every domain, policy, number of rollouts and sequence of random draws", "why_tests_cant": "Every sequence of random draws, with repeated visits of states, cannot be enumerated.", "anchors": ["skdecide/hub/solver/policy_evaluators/policy_evaluator.py: my_custom_rollout, rollout_based_policy_estimation, rollout_based_policy_estimation_fast_scheduling"]}
{"id": "C127", "title": "MetaPolicy follows the policy with the least simulated time", "statement": "If all policies agree, MetaPolicy answers with their common action and simulates nothing; otherwise it answers with the action of the first policy whose simulated episodes take the least time in total. It raises at most IndexError, without policies or for an episode without actions, and KeyError, if the policies disagree and no episodes are to be simulated.", "quantifier": "all policies, observations and results of the simulated episodes", "why_tests_cant": "Ties, the order of the policies and every combination of episode results cannot be enumerated.", "anchors": ["skdecide/hub/solver/meta_policy/meta_policies.py: MetaPolicy._get_next_action"]}
{"id": "C128", "title": "Evaluation of the travelling thief problem", "statement": "For a closed tour, evaluate counts profit and weight of each item as often as its city is left (once, if no city is left twice), adds up the distances of all legs and divides each by the speed with the weight collected so far; the objective is profit minus renting ratio times time. If the knapsack is not overloaded and speeds and capacity are positive, it returns, the time lies between distance / maxSpeed and distance / minSpeed, and the objective is at most the profit. A tour that is not closed gives TypeError; the only other error is a division by zero.", "quantifier": "all problems, tours and packings", "why_tests_cant": "Tours, packings, weights and speeds are unbounded.", "anchors": ["skdecide/builders/discrete_optimization/ttp/ttp_model.py: evaluate, evaluate_with_details, TTPModel.evaluate"]}
{"id": "C129", "title": "Mutations of the travelling thief problem", "statement": "MutationTTPKnapsack keeps the tour and changes exactly one item: it takes an item in its city, if the noted weight and the item fit into the capacity, or leaves one; the answer notes no weight. If the noted weight is not less than that of the packing, the answer is within the capacity. It returns unless nothing is taken and nothing fits. The tours that Mutation2Opt tries have the cities of the tour and start and end in the same city.", "quantifier": "all problems, solutions and random draws", "why_tests_cant": "All packings with all random draws cannot be enumerated.", "anchors": ["skdecide/builders/discrete_optimization/ttp/solver/mutation_ttp.py: MutationTTPKnapsack, MutationTTPKnapsackBest, Mutation2Opt"]}
{"id": "C130", "title": "Search tree and answers of POMCP", "statement": "At any time of an episode the visits of a history are one more than those of its actions together; the value of an action is the average of as many simulated costs as it has visits, within zero and twice the depth bound if the costs of the domain are. A simulation from a known history tries an action with least UCT score, counts it once and moves only its average. A call runs max_iterations simulations and returns an action of least value, or None if no value is below twice the depth bound.", "quantifier": "all domains, options, random draws and sequences of observations", "why_tests_cant": "Search trees, draws and episodes are unbounded.", "anchors": ["skdecide/hub/solver/pomcp/pomcp.py: _get_next_action, _get_best_action, _tree_search, _rollout"]}
{"id": "C131", "title": "Belief and errors of POMCP", "statement": "With a positive depth bound, costs of at most twice that bound and applicable actions everywhere, a call never raises as long as some state of the belief gives the observation in its hundred draws; otherwise it raises ValueError (IndexError without sampled states). The belief keeps its size, and each state is a drawn successor by the last action of a state that gave the observation.", "quantifier": "all domains, options, random draws and sequences of observations", "why_tests_cant": "Beliefs, draws and episodes are unbounded.", "anchors": ["skdecide/hub/solver/pomcp/pomcp.py: _get_next_action, _filter_belief_state, _update_belief_state, get_probability"]}
{"id": "C132", "title": "Interval features of Gym states (BEE1 and BEE2)", "statement": "For observation spaces made of boxes and tuples, bee1_features and bee2_features of elements of the space never raise, in any order of calls, and return fidelity features per cell. In any sequence of calls, states that agree on a cell get the same first feature for it; that feature is the signed number of known increments below the value (BEE1), or the position of the first known interval that contains it (BEE2), a new one exactly when none does.", "quantifier": "all spaces, states, fidelities and sequences of calls", "why_tests_cant": "The tables grow without bound with the history.", "anchors": ["skdecide/hub/domain/gym/gym.py: GymWidthDomain.bee1_features, _bee1_features, bee2_features, _bee2_features, BEE2Node.eval"]}
{"id": "C133", "title": "Bit vectors of Gym states", "statement": "binary_features encodes all elements of an observation space with the same number of bits, and different elements differently.", "quantifier": "all spaces and elements, float32 cells given by their 32 bits", "why_tests_cant": "There are 2^32 values per cell and any number of cells.", "anchors": ["skdecide/hub/domain/gym/gym.py: GymWidthDomain.binary_features, _binary_features"]}
{"id": "C134", "title": "Equality of Gym state proxies", "statement": "For states of one observation space, proxies are equal exactly when the states are.", "quantifier": "all spaces and states", "why_tests_cant": "Spaces nest arbitrarily.", "anchors": ["skdecide/hub/domain/gym/gym.py: GymDomainStateProxy.__eq__, flatten"]}
{"id": "C135", "title": "Discretized Gym actions", "statement": "The discretized actions are: all numbers of a Discrete space; all vectors of a MultiDiscrete space, once each; all combinations for a Tuple; for a box with one bounded cell, equidistant values from the lower to the upper bound.", "quantifier": "all spaces and discretization factors", "why_tests_cant": "Spaces and factors are unbounded.", "anchors": ["skdecide/hub/domain/gym/gym.py: GymDiscreteActionDomain._discretize_action_space, _generate_box_action_combinations"]}
{"id": "C136", "title": "Gym environments as deterministic planning domains", "statement": "In whatever order successors of returned states are asked for, a state carries the observation, reward and termination that the environment gives for the actions that led to it; transition values and terminal states are those of the transition; no call raises.", "quantifier": "all deterministic environments, with copies or with set_state and get_state, and all sequences of calls", "why_tests_cant": "A search expands states in any order, any number of times.", "anchors": ["skdecide/hub/domain/gym/gym.py: DeterministicGymDomain._get_initial_state_, _get_next_state, _get_transition_value, _is_terminal"]}
{"id": "C137", "title": "Depth, goals and accumulated reward of Gym planning domains", "statement": "The depth of a state is the number of actions that led to it; it is a goal when the maximal depth is reached or, if wished, when the environment has ended; the accumulated reward is the sum of the rewards; the comparison of observations decides equality.", "quantifier": "all environments, observation spaces and sequences of calls", "why_tests_cant": "Any sequence of calls of any length.", "anchors": ["skdecide/hub/domain/gym/gym.py: GymPlanningDomain._get_initial_state_, _get_next_state, _get_goals_, _are_same"]}
{"id": "C138", "title": "Reset of initialized Gym domains", "statement": "A reset returns the state of the first reset and the environment then behaves as after its first reset, whatever happened before; set_memory makes a state returned by a step the one from which the environment goes on.", "quantifier": "all environments and sequences of resets and steps", "why_tests_cant": "Any number of episodes of any length.", "anchors": ["skdecide/hub/domain/gym/gym.py: DeterministicInitializedGymDomain.set_memory, _state_reset, _state_step"]}
{"id": "C139", "title": "Domains as Gym environments", "statement": "AsGymEnv of a GymDomain behaves like the environment; steps take and return elements of the announced spaces, also numbers of enumerated elements; invalid action numbers raise before anything is done; resets return elements of the announced space.", "quantifier": "all domains, spaces and actions", "why_tests_cant": "All domains and spaces.", "anchors": ["skdecide/hub/domain/gym/gym.py: AsGymEnv.step, AsGymEnv.reset, AsGymEnv.__init__, GymDomain"]}
{"id": "C140", "title": "Running Cartesian genetic programs", "statement": "A program whose genes point into the graph never raises; the nodes that are evaluated are those some output needs; after n runs with the same input, outputs whose expressions are at most n deep are the values of these expressions, whatever was run before.", "quantifier": "all genomes with forward connections, all libraries, inputs and earlier runs", "why_tests_cant": "Tests run few programs on few inputs.", "anchors": ["skdecide/hub/solver/cgp/pycgp/cgp.py: CGP.create_graph, node_to_evaluate, load_input_data, compute_graph, run, read_output"]}
{"id": "C141", "title": "Genomes of Cartesian genetic programs", "statement": "random makes every genome whose connections go to inputs and earlier columns, and no other; mutate and mutate_per_gene keep genomes whose connections go forward, and genes that are not drawn.", "quantifier": "all sizes, libraries, draws and genomes", "why_tests_cant": "Mutations are random; bad draws are rare.", "anchors": ["skdecide/hub/solver/cgp/pycgp/cgp.py: CGP.random, clone, mutate, mutate_per_gene"]}
{"id": "C142", "title": "Evolution strategy of the CGP solver", "statement": "The fitness never decreases; the final one is at least that of every evaluation made; the father is an individual that was evaluated with this fitness, the first of the best offsprings winning ties; the fitness is a weighted mean of the rewards of the episodes.", "quantifier": "all evaluations, draws and numbers of iterations", "why_tests_cant": "Any number of generations with any draws.", "anchors": ["skdecide/hub/solver/cgp/pycgp/cgpes.py: CGPES.run", "skdecide/hub/solver/cgp/cgp.py: SkDecideEvaluator.evaluate"]}
{"id": "C143", "title": "Observations and actions of the CGP solver", "statement": "Observations are scaled to [-1, 1], growing, and can be recovered; whatever the outputs of the program, the action is an element of the action space; equal shares of [-1, 1] stand for the choices of a discrete space.", "quantifier": "all boxes, discrete spaces and tuples of them, all program outputs", "why_tests_cant": "All outputs of all programs.", "anchors": ["skdecide/hub/solver/cgp/cgp.py: change_interval, change_float_to_int_interval, norm_and_flatten, denorm, CGPWrapper._check_domain_additional"]}
{"id": "C144", "title": "Schedules of the critical path solver along an order", "statement": "Every schedule that run_sgs_on_order returns respects durations, earliest dates, direct predecessors and the availability of each resource at each time; no activity can start earlier when the others stay; the links returned join delayed activities to activities that use a resource in their way.", "quantifier": "all networks, calendars, orders without repetitions and critical paths", "why_tests_cant": "Schedules interact through shared resources; tests use few instances.", "anchors": ["skdecide/builders/discrete_optimization/rcpsp/solver/cpm.py: CPM.run_sgs_on_order"]}
{"id": "C145", "title": "Completeness of the critical path solver along an order", "statement": "With constant capacities that suffice for each activity and a horizon beyond the sum of the durations, run_sgs_on_order returns, places all activities (or all critical ones with their ancestors), and all end within the sum of the durations.", "quantifier": "all acyclic networks, orders and critical paths that go forward", "why_tests_cant": "Tests see few networks and no tight horizon.", "anchors": ["skdecide/builders/discrete_optimization/rcpsp/solver/cpm.py: CPM.run_sgs_on_order"]}
{"id": "C146", "title": "Schedules of the critical path solver along time", "statement": "Every schedule that run_sgs_time_loop returns for constant capacities is feasible and complete, at most one activity starts at each time, and the loop ends for orders that name predecessors first.", "quantifier": "all networks, capacities and orders", "why_tests_cant": "The loop has no bound; it depends on the first ten activities of the order.", "anchors": ["skdecide/builders/discrete_optimization/rcpsp/solver/cpm.py: CPM.run_sgs_time_loop"]}
{"id": "C147", "title": "Answers of the greedy scheduling policy", "statement": "PilePolicy answers with the start in mode 1 of a ready task that the domain accepts, and with a time step exactly when there is none; the task has the most tasks after it, the least sampled duration, or is drawn in proportion to the number of tasks after it, as the rule says; ties go to the first remaining task.", "quantifier": "all domains, states, rules and draws", "why_tests_cant": "Depends on every reachable state and on ties and draws.", "anchors": ["skdecide/hub/solver/pile_policy/pile_policy.py: PilePolicy._get_next_action, PilePolicy._solve_domain"]}
{"id": "C148", "title": "The greedy scheduling policy finishes", "statement": "Rolling out PilePolicy with any rule ends with all tasks complete, within D + 1 steps per task and by time D per task, when durations are at most D and each task alone fits the capacities.", "quantifier": "all acyclic domains with renewable resources, draws and rules", "why_tests_cant": "Termination over all random draws cannot be tested.", "anchors": ["skdecide/hub/solver/pile_policy/pile_policy.py: PilePolicy._get_next_action"]}
{"id": "C149", "title": "The greedy solver maximises the immediate reward", "statement": "SimpleGreedy answers in every state that has an applicable action, with the first applicable action whose expected immediate reward is greatest.", "quantifier": "all domains and states", "why_tests_cant": "Depends on every distribution of next states and on ties.", "anchors": ["skdecide/hub/solver/simple_greedy/simple_greedy.py: SimpleGreedy._get_next_action"]}
{"id": "C150", "title": "Rankings of evolved heuristics", "statement": "The ranking of a heuristic lists every position once by ascending value, ties by position, and depends only on how values compare; without its ends it is a permutation of the inner tasks; protected division never fails.", "quantifier": "all lists of values and all expression trees", "why_tests_cant": "Needs all values and ties.", "anchors": ["skdecide/hub/solver/gphh/gphh.py: GPHHPolicy._get_next_action, GPHH.evaluate_heuristic, protected_div"]}
{"id": "C151", "title": "Pools of heuristics", "statement": "A pool removes the values farthest from the median and gives the mean or median of the rest, between the least and greatest value of its heuristics.", "quantifier": "all values, pool methods and numbers of removed values", "why_tests_cant": "Needs all values and ties.", "anchors": ["skdecide/hub/solver/gphh/gphh.py: PooledGPHHPolicy._get_next_action"]}
{"id": "C152", "title": "Resource features of tasks", "statement": "The resource features of a task are the mean share of each resource over its duration, between 0 and 1 when needs do not exceed capacities; least, greatest, mean, least non-zero and non-zero part are taken of them.", "quantifier": "all needs and capacities over time", "why_tests_cant": "Depends on capacities at all times.", "anchors": ["skdecide/hub/solver/gphh/gphh.py: get_resource_requirements_across_duration, feature_average_resource_requirements, feature_minimum_resource_requirements, feature_non_zero_minimum_resource_requirements, feature_maximum_resource_requirements, feature_resource_requirements"]}
{"id": "C153", "title": "Fitness against a reference permutation", "statement": "The fitness of a heuristic on a domain is least exactly when its ranking is the reference permutation and no two tasks get the same value.", "quantifier": "all values, reference permutations and distances", "why_tests_cant": "A statement about all permutations.", "anchors": ["skdecide/hub/solver/gphh/gphh.py: GPHH.evaluate_heuristic_permutation"]}
{"id": "C154", "title": "Playing evolved heuristics", "statement": "GPHHPolicy starts the accepted ready task of least value or lets time pass, and rolling it out finishes all tasks whatever durations are drawn.", "quantifier": "all heuristics, domains, states and draws", "why_tests_cant": "Termination over all heuristics and draws cannot be tested.", "anchors": ["skdecide/hub/solver/gphh/gphh.py: GPHHPolicy._get_next_action"]}
{"id": "C155", "title": "Solutions of the multi-skill program", "statement": "Every solution of the program built for multi-skill scheduling is read as a schedule that respects durations, precedences, capacities, calendars and skill levels, with one thing at a time per worker, and passes the check of the problem.", "quantifier": "all instances and all feasible assignments", "why_tests_cant": "Needs all solutions a solver may return.", "anchors": ["skdecide/builders/discrete_optimization/rcpsp_multiskill/solvers/lp_model.py: LP_Solver_MRSCPSP.init_model, LP_Solver_MRSCPSP.retrieve_solutions"]}
{"id": "C156", "title": "Completeness and optimality of the multi-skill program", "statement": "Every schedule of the problem is a solution of the program, and a best solution is read as a schedule with the least makespan.", "quantifier": "all instances, schedules and best assignments", "why_tests_cant": "Optimality quantifies over all schedules.", "anchors": ["skdecide/builders/discrete_optimization/rcpsp_multiskill/solvers/lp_model.py: LP_Solver_MRSCPSP.init_model, LP_Solver_MRSCPSP.retrieve_solutions"]}
{"id": "C157", "title": "Answers of the hindsight planner", "statement": "Every call answers with the first action of some scenario's plan, the one of least weighted cost over all scenarios; unanimous scenarios are followed and asking again at once gives the same answer.", "quantifier": "all scenarios, weights, planners, set orders and sequences of calls", "why_tests_cant": "Values accumulate over calls, so only long runs on all domains would show errors.", "anchors": ["skdecide/hub/solver/_hindsight/hindsight.py: HindsightPlanner.give_first_action, HindsightPlanner.first_pass, HindsightPlanner.second_pass, HindsightPlanner.look_one_step_ahead"]}
{"id": "C158", "title": "The hindsight planner without kept plans", "statement": "With reuse_plans=False every call answers with the best first action over the scenarios, also when asked again.", "quantifier": "all scenarios and sequences of calls", "why_tests_cant": "Needs all sequences of calls.", "anchors": ["skdecide/hub/solver/_hindsight/hindsight.py: HindsightPlanner.give_first_action, HindsightPlanner.look_one_step_ahead"]}
{"id": "C159", "title": "Time windows and time lags", "statement": "Each kind of time window restricts what its name says, the defaults restrict nothing, and no accepted run starts or ends a task outside of its window.", "quantifier": "all windows, horizons, tasks and runs", "why_tests_cant": "Windows are data of a domain; tests use few of them and no test looks at runs that violate them.", "anchors": ["skdecide/builders/scheduling/time_windows.py: ClassicTimeWindow, StartFromOnlyTimeWindow, StartBeforeOnlyTimeWindow, EndFromOnlyTimeWindow, EndBeforeOnlyTimeWindow, StartTimeWindow, EndTimeWindow, EmptyTimeWindow, WithoutTimeWindow", "skdecide/builders/scheduling/time_lag.py: MinimumOnlyTimeLag, MaximumOnlyTimeLag", "skdecide/builders/scheduling/scheduling_domains.py: SchedulingDomain"]}
{"id": "C160", "title": "Values of scheduling transitions", "statement": "With the makespan as objective the costs of a run add up to the time passed; with costs, a transition costs its mode when it starts a task and the used resources for the time that passes.", "quantifier": "all domains, costs, states and runs", "why_tests_cant": "Sums over runs of every length in every domain.", "anchors": ["skdecide/builders/scheduling/scheduling_domains.py: SchedulingDomain._get_transition_value", "skdecide/builders/scheduling/resource_costs.py: WithoutModeCosts, WithoutResourceCosts"]}
{"id": "C161", "title": "Distributions of next states in scheduling", "statement": "The distribution of next states has exactly the outcomes that the simulation can draw, with probabilities that add up to one.", "quantifier": "all domains, duration distributions, conditions, states and actions", "why_tests_cant": "Probabilities of all outcomes for all domains.", "anchors": ["skdecide/builders/scheduling/scheduling_domains.py: UncertainSchedulingDomain._get_next_state_distribution, SchedulingDomain.update_start_tasks_uncertain, SchedulingDomain.update_complete_tasks_uncertain, SchedulingDomain.update_time_uncertain"]}
{"id": "C162", "title": "Enumerated actions with resource units", "statement": "The enumerated actions are starting possible tasks with one free capable unit, pausing ongoing tasks, resuming paused tasks and letting time pass; each start is accepted.", "quantifier": "all domains with units and skills, all states and runs", "why_tests_cant": "Needs all skill tables, states and runs.", "anchors": ["skdecide/builders/scheduling/scheduling_domains.py: SchedulingActionSpaceWithResourceUnit._get_elements", "skdecide/builders/scheduling/skills.py: WithResourceSkills.find_one_ressource_to_do_one_task"]}
{"id": "C163", "title": "Sampled actions with resource units", "statement": "A sampled start names a minimal team of free units that has all skills and is accepted; time passes only when nothing can be started; a sampled resume keeps the mode of the task.", "quantifier": "all domains, states, random choices and orders of the units", "why_tests_cant": "Every random choice and every order of the units matters.", "anchors": ["skdecide/builders/scheduling/scheduling_domains.py: SchedulingActionSpaceWithResourceUnitSamplable.sample, SchedulingDomain.get_possible_resume_tasks"]}
{"id": "C164", "title": "Reading instance files", "statement": "A file that writes a knapsack, colouring, travelling salesman, vehicle routing or facility location instance, in any spacing and with anything after it, is read as exactly this instance; a file with too few lines raises IndexError.", "quantifier": "all instances, all layouts of the text", "why_tests_cant": "Every number, every spacing and every number of lines must work.", "anchors": ["skdecide/builders/discrete_optimization/knapsack/knapsack_parser.py: parse_input_data", "skdecide/builders/discrete_optimization/coloring/coloring_parser.py: parse", "skdecide/builders/discrete_optimization/tsp/tsp_parser.py: parse_file", "skdecide/builders/discrete_optimization/vrp/vrp_parser.py: parse_input", "skdecide/builders/discrete_optimization/facility/facility_parser.py: parse"]}
{"id": "C165", "title": "Reading PSPLIB files", "statement": "A PSPLIB file is read as the instance it writes: horizon, capacities, successors, durations and uses of every mode; multi-mode exactly when some task has several modes; a missing section raises ValueError.", "quantifier": "all instances with distinct resource names, all layouts of the lines", "why_tests_cant": "The number of words decides what a line means; all numbers of resources, tasks and modes matter.", "anchors": ["skdecide/builders/discrete_optimization/rcpsp/rcpsp_parser.py: parse_psplib"]}
{"id": "C166", "title": "Reading travelling thief files", "statement": "A travelling thief file is read as the instance it writes, nodes and items numbered from zero; malformed headers raise.", "quantifier": "all instances, all layouts of the lines", "why_tests_cant": "All numbers of nodes and items and all spacings matter.", "anchors": ["skdecide/builders/discrete_optimization/ttp/ttp_parser.py: parse"]}
{"id": "C167", "title": "Augmented random search", "statement": "Solving raises nothing on supported spaces and gives a policy whose actions belong to the action space; an epoch moves the policy along the best directions, weighted by the difference of their rewards; rewards of an episode are cut to [-1, 1], bounded in number, and those that are no numbers are skipped.", "quantifier": "all domains, draws and parameters", "why_tests_cant": "Every reward sequence, perturbation and space must be covered.", "anchors": ["skdecide/hub/solver/ars/ars.py: AugmentedRandomSearch.explore, update_policy, get_dimension_space, _solve_domain, _sample_action"]}
{"id": "C168", "title": "Running statistics of observations", "statement": "After any observations the normalizer holds, per component, their number, mean, sum of squared deviations and variance (at least 1/100), in whatever order they came; normalised observations have mean zero and mean square at most one.", "quantifier": "all sequences of observations", "why_tests_cant": "The update formulas are incremental; only induction shows them right for all sequences.", "anchors": ["skdecide/hub/solver/ars/ars.py: Normalizer"]}
{"id": "C169", "title": "Encodings of the genetic algorithm", "statement": "An encoding asked for by name is the one of the register; individuals have one gene per place, each a value of the place; mutation keeps the places it does not hit.", "quantifier": "all registers, encodings and draws", "why_tests_cant": "Every kind of encoding and every draw matters.", "anchors": ["skdecide/builders/discrete_optimization/generic_tools/ea/ga.py: Ga.__init__"]}
{"id": "C170", "title": "Fitness and run of the genetic algorithm", "statement": "The fitness of a sum of objectives is the weighted sum; the solution returned has the best fitness of all populations; the number of evaluations is within one population of the limit; a tournament picks the best aspirant.", "quantifier": "all problems, operators and draws", "why_tests_cant": "All generations and selections must be covered.", "anchors": ["skdecide/builders/discrete_optimization/generic_tools/ea/ga.py: Ga.evaluate_problem, Ga.solve"]}
{"id": "C171", "title": "Alternating between encodings", "statement": "The alternation runs genetic algorithms until the evaluations reach the limit and returns the solution of the last run.", "quantifier": "all problems and parameters", "why_tests_cant": "The number of runs depends on limits without bound; runs that never end are not observable by tests.", "anchors": ["skdecide/builders/discrete_optimization/generic_tools/ea/alternating_ga.py: AlternatingGa.solve"]}
{"id": "C172", "title": "The class Graph", "statement": "Neighbours and predecessors are those of the given edges (of either direction in undirected graphs), without repetition; attributes are those given last; the nodes are the given ones in order; the networkx graph joins the same nodes; ancestors and descendants are the nodes joined by paths.", "quantifier": "all lists of nodes and edges", "why_tests_cant": "Every combination of repeated, reversed and dangling edges must be covered.", "anchors": ["skdecide/builders/discrete_optimization/generic_tools/graph_api.py: Graph", "skdecide/builders/scheduling/graph_toolbox.py: Graph"]}
{"id": "C173", "title": "Precedence graphs of projects", "statement": "The graph of a project has its activities as nodes, with the durations of their modes, and its precedence relation as edges; the graph for the critical path method carries on each edge the smallest and the largest duration of the activity it leaves.", "quantifier": "all projects", "why_tests_cant": "All numbers of modes and all precedence relations matter.", "anchors": ["skdecide/builders/discrete_optimization/rcpsp/rcpsp_model.py: RCPSPModel.compute_graph", "skdecide/builders/discrete_optimization/rcpsp/rcpsp_utils.py: compute_graph_rcpsp"]}
{"id": "C174", "title": "Consumption of resources over time", "statement": "The consumption of a resource at a time is the sum of the requirements of the activities that run, the same that the check of schedules adds up; the view on the future is the view on the past one step later; the merged curve shows both at each time.", "quantifier": "all projects, schedules and times", "why_tests_cant": "Sums over all schedules and all times.", "anchors": ["skdecide/builders/discrete_optimization/rcpsp/rcpsp_utils.py: compute_resource_consumption, compute_nice_resource_consumption, all_diff_start_time"]}
{"id": "C175", "title": "Schedules of the units of each resource", "statement": "For a feasible schedule every activity gets exactly as many units as it requires; a unit works at one activity at a time, on all of it; the total of a unit is the time it works; units that have worked least come first.", "quantifier": "all projects and feasible schedules", "why_tests_cant": "That a unit free at the start stays free needs an invariant over all earlier activities.", "anchors": ["skdecide/builders/discrete_optimization/rcpsp/rcpsp_utils.py: compute_schedule_per_resource_individual"]}
{"id": "C176", "title": "Projects with helper tasks", "statement": "The generator adds a helper before and a helper after each chosen activity: the precedences of the project made are those of the project given, those between helpers and activities, and one to the sink from each activity that would not precede it; every other activity precedes the sink; durations are multiplied; helpers need one assistant each and nothing else; the maps tell the helpers of each activity.", "quantifier": "all projects numbered from source to sink, all draws", "why_tests_cant": "All projects, all permutations and all cross precedences.", "anchors": ["skdecide/builders/discrete_optimization/rcpsp/rcpsp_data_generator.py: generate_rcpsp_with_helper_tasks_data"]}
{"id": "C177", "title": "Correction of schedules with helpers", "statement": "A feasible schedule is corrected to a feasible schedule of the same makespan: only the helpers before activities move, later ones first, to starts that are no earlier, and each is moved to the latest start that precedences and resources allow at that moment; the search ends; the gap of helpers is never negative.", "quantifier": "all projects with constant capacities, all feasible schedules", "why_tests_cant": "The search for a start visits every time of every schedule.", "anchors": ["skdecide/builders/discrete_optimization/rcpsp/rcpsp_model.py: RCPSP_H_Model.rcpsp_pre_helper_correction, RCPSP_H_Model.evaluate"]}
{"id": "C178", "title": "One project for many instances", "statement": "The project made of many instances has the structure of the first; each duration and requirement is the aggregated value (mean, median, percentile, minimum, maximum) and lies between the smallest and the largest of the instances; starting times valid for the project of largest values are valid for every instance, those valid for an instance are valid for the project of smallest values.", "quantifier": "all lists of instances, all aggregations", "why_tests_cant": "All instances and all starting times.", "anchors": ["skdecide/builders/discrete_optimization/rcpsp/rcpsp_model.py: Aggreg_RCPSPModel.get_unique_rcpsp_model", "skdecide/builders/discrete_optimization/generic_tools/robustness/robustness_tool.py: RobustnessTool"]}
{"id": "C179", "title": "Laws of uncertain projects", "statement": "The law of a duration is the duration and the range around it, cut at 1; the law of a requirement is the requirement and the range around it, between 0 and the capacity; source and sink are certain; other details have no law; every law contains what the project says.", "quantifier": "all projects, ranges and switches", "why_tests_cant": "All projects and ranges.", "anchors": ["skdecide/builders/discrete_optimization/rcpsp/rcpsp_model.py: create_poisson_laws, create_poisson_laws_duration, create_poisson_laws_resource"]}
{"id": "C180", "title": "Projects made of laws", "statement": "The probabilities of a law are those of its integers and add up to 1; the project made differs from the base project in the details that have laws; averages, samples, best and worst cases are within the law; percentile cases are quantiles; starting times valid in the worst case are valid for every sample.", "quantifier": "all base projects, laws, cases and draws", "why_tests_cant": "All laws, all draws and all starting times.", "anchors": ["skdecide/builders/discrete_optimization/rcpsp/rcpsp_model.py: UncertainRCPSPModel"]}
{"id": "C181", "title": "Constraint program of single-mode projects", "statement": "CP_RCPSP_MZN gives MiniZinc a program whose every solution is retrieved as a schedule of all activities that starts at 0 or later, keeps the precedences and capacities of the project at every time, and ends by the objective; schedules of the project solve the program, so its optimum is the shortest makespan.  The code disagrees twice: start times are limited to one less than the sum of the durations, so projects whose activities all follow each other have no solution; and activities without duration that require resources are kept off others, so the optimum can be too long.  Resources with calendars raise TypeError, activities without mode 1 KeyError, and every partial solution AttributeError.", "quantifier": "all projects with activities numbered from 1, all solutions of the program, all start times", "why_tests_cant": "The program is text in another language, run by an external solver on one instance at a time; a feasible result does not show that no schedule was excluded, and the missing last time step only shows on projects without parallel activities.", "anchors": ["skdecide/builders/discrete_optimization/rcpsp/solver/cp_solvers.py: CP_RCPSP_MZN.init_model, retrieve_solutions", "skdecide/builders/discrete_optimization/rcpsp/minizinc/rcpsp_single_mode_mzn.mzn"]}
{"id": "C182", "title": "Constraint program of multi-mode projects", "statement": "CP_MRCPSP_MZN gives MiniZinc a program whose every solution is retrieved, without exception, as one mode for each inner activity and a schedule of all activities that starts at 0 or later, keeps the precedences, the capacities at every time and the totals of non-renewable resources, and ends exactly at the objective, when source and sink have mode 1 only; modes and start times of the project up to the sum of the longest durations solve the program, so its optimum is not longer than any of these.  The code disagrees for a source with two modes: retrieve_solutions lists 1 for each of them, so the modes of all other activities are shifted, here up to KeyError.", "quantifier": "all projects with activities numbered from 1, all solutions of the program, all modes and start times", "why_tests_cant": "The program is text in another language, run by an external solver; single runs cannot show that no schedule is excluded, and source and sink have one mode in all benchmark files.", "anchors": ["skdecide/builders/discrete_optimization/rcpsp/solver/cp_solvers.py: CP_MRCPSP_MZN.init_model, retrieve_solutions", "skdecide/builders/discrete_optimization/rcpsp/minizinc/rcpsp_multi_mode_mzn.mzn"]}
{"id": "C183", "title": "Constraint programs of knapsacks", "statement": "For items numbered by position, every solution of the list program of CPKnapsackMZN is retrieved as a packing within the capacity with its own value and weight, and every such packing comes from exactly one solution; the solutions of the program of CPKnapsackMZN2 are exactly the fitting packings and are retrieved as these; both programs have the same greatest value.  solve_lns, from a fitting packing with its value, never fails, whatever is fixed and answered, and returns a fitting packing with its value, at least as valuable as the first one and as every answer.  The code disagrees for items listed in another order than their indices: list_taken is written by index but read by position, so the retrieved vector can exceed the capacity; indices past the end raise IndexError; a first solution without value raises TypeError.", "quantifier": "all item lists, capacities, values of the variables, sequences of answers and fixed items", "why_tests_cant": "The programs are text in another language; that symmetric solutions are excluded and no packing is lost, and that any sequence of fixed items is safe, needs all packings and all runs.", "anchors": ["skdecide/builders/discrete_optimization/knapsack/solvers/cp_solvers.py: CPKnapsackMZN, CPKnapsackMZN2", "skdecide/builders/discrete_optimization/knapsack/minizinc/knapsack_mzn.mzn", "skdecide/builders/discrete_optimization/knapsack/minizinc/knapsack_global.mzn"]}
{"id": "C184", "title": "Constraint program of facility location", "statement": "Whatever the solver answers on facility_int.mzn, the assignment of FacilityCP gives every customer a facility, overloads none and is accepted by the problem; every assignment that overloads none comes from a solution; for positive demands the objective is the cost of the assignment and a best answer is a cheapest assignment.  solve_lns returns the first assignment or one that overloads none, with its own fitness, at least that of the first and of every answer; no choice of fixed customers makes an iteration infeasible.  The code disagrees where customers demand nothing (they open facilities for nothing, so that the best answer costs any amount too much), where numbers are not whole (they are cut off, so that the only answer overloads a facility), and where the first assignment is overloaded and the penalty is small (it is kept for good).", "quantifier": "all problems over whole numbers, values of the variables, sequences of answers and fixed customers", "why_tests_cant": "The program is text in another language; equality of objectives and the safety of any sequence of fixed customers needs all assignments and all runs.", "anchors": ["skdecide/builders/discrete_optimization/facility/solvers/facility_cp_solvers.py: FacilityCP", "skdecide/builders/discrete_optimization/facility/minizinc/facility_int.mzn", "skdecide/builders/discrete_optimization/facility/facility_model.py"]}
{"id": "C185", "title": "Constraint programs of graph colouring", "statement": "Whatever the solver answers on the programs of ColoringCP for an undirected graph, the colouring retrieved is proper, accepted by satisfy and uses at most as many colours as the objective (exactly as many with the chain of colours); every proper colouring within the bound, renumbered, is a solution with its number of colours as objective; so a best answer from a proper start has the least number of colours of all.  The neighbourhoods always contain the current colouring and nothing worse, solve_lns returns the first colouring or a proper one, never with more colours, and the post-processing keeps equality and order of colours and uses 0..k-1.  The code disagrees: directed graphs with edges and graphs with an edge listed twice or in both directions have no solution (the number of edges announced differs), and the program with cliques raises NameError for all graphs with less than 200 maximal cliques.", "quantifier": "all graphs, values of the variables, starts, sequences of answers and fixed nodes", "why_tests_cant": "The programs are text in another language; that they lose no colouring and add none needs all graphs and all colourings.", "anchors": ["skdecide/builders/discrete_optimization/coloring/solvers/coloring_cp_solvers.py: ColoringCP", "skdecide/builders/discrete_optimization/coloring/coloring_toolbox.py: compute_cliques", "skdecide/builders/discrete_optimization/coloring/solvers/coloring_cp_lns_solvers.py", "skdecide/builders/discrete_optimization/coloring/minizinc/coloring.mzn", "skdecide/builders/discrete_optimization/coloring/minizinc/coloring_clique.mzn", "skdecide/builders/discrete_optimization/coloring/minizinc/coloring_for_lns.mzn"]}
{"id": "C186", "title": "Constraint programs of tours", "statement": "Whatever the solver answers on the programs of TSP_CP_Solver, the path read off visits every node other than start and end exactly once, is evaluated to the length of its tour and, with floats, that length is the objective; with distances of at least 0 every tour is read off a solution, so a best answer over floats is a shortest tour and one over integers is longer than any other by less than one unit for each leg.  The code disagrees: the program over integers may return a tour that is not a shortest one, with directed distances the objective may differ from the length, problems with negative distances may have no answer at all although they have tours, and where all nodes are start or end solve raises IndexError on every answer.", "quantifier": "all problems with symmetric distances, all values of the variables", "why_tests_cant": "Both programs are text in another language; that a circuit with a fixed return is read off as a complete path for any start, end and number of nodes needs all circuits.", "anchors": ["skdecide/builders/discrete_optimization/tsp/solver/tsp_cp_solver.py: TSP_CP_Solver", "skdecide/builders/discrete_optimization/tsp/common_tools_tsp.py: build_matrice_distance", "skdecide/builders/discrete_optimization/tsp/minizinc/tsp_int.mzn", "skdecide/builders/discrete_optimization/tsp/minizinc/tsp_float.mzn"]}
{"id": "C187", "title": "Constraint program choosing modes", "statement": "Whatever the solver answers on the program of CP_MRCPSP_MZN_MODES, the modes read off exist and fit: every resource that is not renewed suffices for all activities together and every other for each of them, a calendar counting with its greatest entry; and every such choice is read off a solution.  The code disagrees where the modes of an activity are not numbered 1, 2, ... in the order of the dictionary: numbers then stand for two modes, a project with fitting modes may have no solution and modes read off may need more than there is.  Projects without resources, with an activity without modes, or with numbers beside calendars raise.", "quantifier": "all projects with activities 1, ..., n, all values of the variables", "why_tests_cant": "The program is text in another language; that numbers of modes are read back as the modes whose requirements were counted needs all projects.", "anchors": ["skdecide/builders/discrete_optimization/rcpsp/solver/cp_solvers.py: CP_MRCPSP_MZN_MODES", "skdecide/builders/discrete_optimization/rcpsp/minizinc/mrcpsp_mode_satisfy.mzn"]}
{"id": "C188", "title": "Neighbourhoods of the constraint programs of projects", "statement": "The constraints that ConstraintHandlerStartTimeInterval_CP adds leave exactly the starts in which every activity drawn that ends more than delta before the makespan starts within its window and not after the makespan, and no activity starts more than 50 after it; the incumbent is always among them.  ConstraintHandlerByPart_CP also frees the activities of the current part, and each activity is free within as many calls as there are parts.  In ConstraintHandlerMix, whatever was drawn, the probabilities stay positive and sum to 1, usages sum to the number of calls and improvements to the number of changes of the fitness.  The code disagrees: a fall of the fitness counts as an improvement, and the constraints returned are not all that were added.", "quantifier": "all schedules, parameters, draws and sequences of fitnesses", "why_tests_cant": "Neighbourhoods are text added to a program; that the incumbent always remains in them and that probabilities stay a distribution after any number of calls needs all draws.", "anchors": ["skdecide/builders/discrete_optimization/rcpsp/solver/rcpsp_cp_lns_solver.py: ConstraintHandlerStartTimeInterval_CP, ConstraintHandlerByPart_CP, ConstraintHandlerMix"]}
{"id": "C189", "title": "Breaks of a calendar and the cuts for them", "statement": "get_ressource_breaks returns for each resource exactly the times within its calendar at which the activities under way require more, each in mode 1, than there is; a solution is judged satisfying exactly if there are none.  No cut on starts excludes a schedule that fits into the calendar, and an activity starting where there is not enough for it is cut off unless there is never enough.  build_other_solution ends although it extends the list it runs over, and adds one repaired solution for each that does not satisfy, none if there is a partial solution.  The code disagrees: modes other than 1 and times beyond the calendar are never found, and a schedule with a break can meet all its cuts.  A number for a capacity raises.", "quantifier": "all projects, schedules and stores", "why_tests_cant": "Breaks depend on all requirements at all times; validity of a cut is a statement about all other schedules.", "anchors": ["skdecide/builders/discrete_optimization/rcpsp/solver/calendar_solver_iterative.py: get_ressource_breaks, PostProcessSolutionNonFeasible, ConstraintHandlerAddCalendarConstraint"]}
{"id": "C190", "title": "Learning from an expert (MaxentIRL)", "statement": "Within the bounds of the space, the index of an observation is that of its pair of cells: it has a row of the table, and observations share a row exactly if they share both cells.  The expectations of the expert are the visits per demonstration; weights move by the rate times the difference of expert and learner, only in epoch 10000 and the multiples of 5000 beyond, and are cut off at 0.  A turn plays the first best action and moves its one value by the rate towards weight plus discounted best next value; so all values stay at most 0 and, while the weights are the first ones, at least -1/(1-gamma).  An episode is a series of turns that ends at the first state in which the world is done; a table loaded before is returned as it is.  Nothing raises within the bounds.  The policy is the first best action.  The code disagrees with what is said of it: upper bounds wrap to other cells or raise; below the lower bounds rows are taken from the end of the table; in a space with another number of actions the best action is reduced by that number; what is learned after the last epoch divisible by 1000 is lost; with up to 10000 epochs the expert has no influence; of a box only the middle and the upper end are played; without the file of the expert the policy is action 0.", "quantifier": "all sizes, bounds, rates, worlds, demonstrations and numbers of epochs", "why_tests_cant": "The world and all episodes are arbitrary; invariants hold along every training.", "anchors": ["skdecide/hub/solver/maxent_irl/maxent_irl.py: MaxentIRL"]}
{"id": "C191", "title": "Constraint program of vehicle routing", "statement": "What solves vrp.mzn with the data of cp_solving is a plan: cut at the copies of the depot, circuit_vrp gives one route for each vehicle, every customer is on exactly one of them, no route exceeds the capacity, the objective is the cost of the routes in whole units, and from the second route on the numbers of customers do not grow.  Conversely every plan in that order solves the program, and every plan can be put in that order, so a best solution is a best plan in whole units.  The neighbourhoods of the search contain the incumbent, which stays a solution and never gets worse.  The code disagrees: distances are cut off, so a best solution need not be a best plan.", "quantifier": "all numbers of customers and vehicles, demands, capacities and distances", "why_tests_cant": "The program is a set of constraints; soundness and completeness quantify over all its solutions and all plans.", "anchors": ["skdecide/builders/discrete_optimization/vrp/minizinc/vrp.mzn", "skdecide/builders/discrete_optimization/vrp/solver/vrp_cp.py: cp_solving"]}
{"id": "C192", "title": "Comparison of result stores", "statement": "When every store has solutions, get_best_by_objective_by_result_storage gives under the name of each store its first solution whose value of the objective is best in the direction of the store; an unlisted objective, a store without solutions or without a name raises.  generate_super_pareto returns exactly the solutions that no solution of any store beats by larger values.  The reevaluation has, for every store and objective, the values of an unbeaten solution of the store in the scenarios.  Removing duplicates keeps, in order, exactly the first solution of each value, for attributes of one length.  The code disagrees: of two stores with one name only the last is found; weights of objectives are ignored; the front of stores to minimise is the worst one; a store listed twice has no entry at its second place; an attribute that only begins like an earlier one is removed as a duplicate.", "quantifier": "all lists of stores, names, objectives, scenarios and fitness vectors of one length", "why_tests_cant": "Best values, fronts and duplicates are statements about all stores; tests compare a few stores with different names.", "anchors": ["skdecide/builders/discrete_optimization/generic_tools/result_storage/resultcomparator.py", "skdecide/builders/discrete_optimization/generic_tools/result_storage/result_storage.py: get_best_solution, remove_duplicate_solutions, result_storage_to_pareto_front"]}
{"id": "C193", "title": "Solution files of multi-skill projects", "statement": "A solution written by write_solution, when its tasks have different original numbers, is read back by parse_results as it was: every task with workers with its start and the last of its workers, and nothing else; a scheduled task without an entry of workers raises KeyError.  recompute_solution makes, of known tasks and workers, the solution in mode 1 in which every task starts as given, lasts its duration and uses exactly the skills that its worker has and the task requires, with the source at 0 and the sink at the largest end.  The code disagrees: of several workers of a task only the last is read, tasks without workers are lost, a word that is no pair silently hides the rest of its line, and what parse_results read never makes a solution of a problem that parse_imopse read, since the workers are words there and numbers here.", "quantifier": "all solutions, names, texts and problems", "why_tests_cant": "Reading back is a statement about all texts that can be written.", "anchors": ["skdecide/builders/discrete_optimization/rcpsp_multiskill/rcpsp_multiskill_parser.py: write_solution", "skdecide/builders/discrete_optimization/rcpsp_multiskill/rcpsp_multiskill_parser.py: parse_results", "skdecide/builders/discrete_optimization/rcpsp_multiskill/rcpsp_multiskill_parser.py: recompute_solution"]}
{"id": "C194", "title": "Reading multi-skill projects", "statement": "A file in the format of iMOPSE, with any text and counts around its two tables, different numbers in each table and predecessors that are tasks of the file, is read by parse_imopse as the project it describes: workers with their salaries and levels plus one; tasks named by the order of their numbers from 2 on, with their durations, the levels plus one of the skills they require and 0 for all others that the file mentions, and as successors the tasks that name them as predecessors and the sink; the source 1 before all and the sink after all, both free; the horizon given, or 300.  Names keep the order of numbers.  A predecessor that is no task raises KeyError.  The code disagrees in two ways: a level before any skill raises for the first worker but goes to the last skill of the line before for later ones, and without the line of = after the workers, tasks are read as workers and replace those with their numbers.", "quantifier": "all files, workers, tasks and horizons", "why_tests_cant": "Files are of any length, and every spacing and numbering has to be read alike.", "anchors": ["skdecide/builders/discrete_optimization/rcpsp_multiskill/rcpsp_multiskill_parser.py: parse_imopse"]}
{"id": "C195", "title": "Tools of tours", "statement": "If no two points coincide when their coordinates are cut off to integers, or equal distances are sorted by number, closest_greedy returns a tour: it begins at node 0, visits every node once, goes on from every node to a nearest one of those left (by the sum of the differences of the coordinates cut off), and its length is that of the closed tour.  compute_length gives the lengths between neighbours and from the last node to the first, and their sum; a number of nodes above that of the tour, or a tour without nodes, raises IndexError.  baseline_in_order is the tour in the order of the file with its length.  The code disagrees: where points coincide and equal distances are sorted otherwise, StopIteration may be raised; and since coordinates are cut off, the next node may not be the nearest one.", "quantifier": "all points, lengths, orders and numbers of nodes", "why_tests_cant": "Tours and the orders of equal distances are arbitrary.", "anchors": ["skdecide/builders/discrete_optimization/tsp/common_tools_tsp.py: closest_greedy", "skdecide/builders/discrete_optimization/tsp/common_tools_tsp.py: build_matrice_distance_np", "skdecide/builders/discrete_optimization/tsp/common_tools_tsp.py: compute_length", "skdecide/builders/discrete_optimization/tsp/common_tools_tsp.py: baseline_in_order"]}
{"id": "C196", "title": "Tools of vehicle routing", "statement": "build_graph has an edge in both directions between two customers exactly if their distance is not 0, with the distance as weight, a loop at the depot and nothing else.  prune_search_space leaves all distances if as many neighbours as customers are asked for; otherwise it leaves, cut off to integers, those to the depot and to every customer for which fewer than k others are as near, and drops all others than which k are nearer.  recompute_output gives, of routes that begin at the depot, the customers in their order and the length of all closed routes.  The text of output_result, split into lines and words, is the objective, the flag and for each vehicle the depot, its customers and the depot.  The code disagrees: customers at the same place have no edge; pruned distances below 1 are 0; of routes that do not begin at the depot the first customer is lost; fewer tours than vehicles raise IndexError.", "quantifier": "all distances, orders, routes and tours", "why_tests_cant": "Orders of equal distances, routes and numbers are arbitrary; texts are of any length.", "anchors": ["skdecide/builders/discrete_optimization/vrp/vrp_toolbox.py: compute_length_matrix", "skdecide/builders/discrete_optimization/vrp/vrp_toolbox.py: prune_search_space", "skdecide/builders/discrete_optimization/vrp/vrp_toolbox.py: build_graph", "skdecide/builders/discrete_optimization/vrp/vrp_toolbox.py: recompute_output", "skdecide/builders/discrete_optimization/vrp/vrp_toolbox.py: output_result"]}
{"id": "C197", "title": "Tours and vehicle routing with a routing library", "statement": "The tours that VrpORToolsSolver.retrieve reads from an assignment of the library are one for each vehicle, go through every customer that is no depot exactly once and through nothing else, and the demands of start and customers fit into the vehicle; the problem accepts them if the ends have no demand or are the starts.  Routes that the library finds no more costly than others are longer than these by at most one hundred thousandth for each of their arcs.  The permutation of TSP_ORtools.solve goes through every node but start and end exactly once, and with whole distances the costs of fewer than 1000 nodes are the distances times a million.  The code disagrees: the demand of an end that is not the start is left out, so that the problem rejects accepted tours; distances of tours are cut off before they are multiplied, so that all distances below 1 cost nothing and longer tours count as equal; with 1000 nodes or more the costs raise TypeError.", "quantifier": "all problems, assignments of the library, distances and routes", "why_tests_cant": "Assignments and numbers of vehicles are arbitrary; the library is external.", "anchors": ["skdecide/builders/discrete_optimization/vrp/solver/solver_ortools.py: VrpORToolsSolver.init_model", "skdecide/builders/discrete_optimization/vrp/solver/solver_ortools.py: VrpORToolsSolver.retrieve", "skdecide/builders/discrete_optimization/tsp/solver/solver_ortools.py: TSP_ORtools.init_model", "skdecide/builders/discrete_optimization/tsp/solver/solver_ortools.py: TSP_ORtools.solve"]}
{"id": "C198", "title": "Neighbourhoods of the program for multi-skill projects", "statement": "ConstraintHandlerStartTimeIntervalMRCPSP, given a plan and drawn tasks, hands the program the starts and modes of this plan as hints, which a solution of the program meets, and rows with which the program has exactly the plans near it: those that start each drawn task that ends more than five before the end within the bounds around its start and by the end of the plan.  With bounds that are not negative the plan itself is among them, and a best solution starts the last task no later.  Asking for more tasks than are scheduled raises ValueError.  The code disagrees: ConstraintHandlerFixStartTime raises AttributeError for every plan, as solutions of multi-skill projects have no rcpsp_schedule.", "quantifier": "all projects for which the program can be built, plans, drawn tasks and bounds", "why_tests_cant": "Plans, draws and bounds are arbitrary; the solver library is external.", "anchors": ["skdecide/builders/discrete_optimization/rcpsp_multiskill/solvers/ms_rcpsp_lp_lns_solver.py: ConstraintHandlerFixStartTime", "skdecide/builders/discrete_optimization/rcpsp_multiskill/solvers/ms_rcpsp_lp_lns_solver.py: ConstraintHandlerStartTimeIntervalMRCPSP"]}
{"id": "C199", "title": "Tables of project solvers", "statement": "look_for_solver returns, each once and in the order of the table, exactly the solvers for which the class of the problem is noted; it raises KeyError exactly if one of these is not listed, which happens in neither of the two tables.  solvers_map notes each solver with the last key and parameters under which it is listed.  The code disagrees: problems of the general class RCPSPModel and of derived classes have no solvers; no solver is noted under the key lns, and the neighbourhood search of multi-skill projects is noted with 20 rounds instead of 500.", "quantifier": "all tables of solvers and classes of problems", "why_tests_cant": "Tables and classes are arbitrary.", "anchors": ["skdecide/builders/discrete_optimization/rcpsp/rcpsp_solvers.py: look_for_solver", "skdecide/builders/discrete_optimization/rcpsp/rcpsp_solvers.py: solvers_map", "skdecide/builders/discrete_optimization/rcpsp_multiskill/rcpsp_multiskill_solvers.py: look_for_solver", "skdecide/builders/discrete_optimization/rcpsp_multiskill/rcpsp_multiskill_solvers.py: solvers_map"]}
{"id": "C200", "title": "Program giving individuals to activities", "statement": "Every assignment LP_MRCPSP_GANTT.init_model allows gives each activity, of each resource it needs, exactly as many individuals as it needs, all free at every time of the activity, and no individual works on two activities at the same time.  If all activities take time, every such choice is allowed.  With calendars long enough, KeyError is raised, instead of an infeasible program, exactly if nobody is free for the first resource some activity needs; nothing else is raised.  The code disagrees: an activity of no length inside another one counts as meeting it, so that the only possible choice is forbidden.", "quantifier": "all schedules, calendars, requirements and covers by cliques", "why_tests_cant": "Numbers of activities, individuals and times are arbitrary.", "anchors": ["skdecide/builders/discrete_optimization/rcpsp/solver/rcpsp_lp_solver_gantt.py: intersect", "skdecide/builders/discrete_optimization/rcpsp/solver/rcpsp_lp_solver_gantt.py: LP_MRCPSP_GANTT.__init__", "skdecide/builders/discrete_optimization/rcpsp/solver/rcpsp_lp_solver_gantt.py: LP_MRCPSP_GANTT.init_model"]}
{"id": "C201", "title": "Additions to the program giving individuals to activities", "statement": "After adding_constraint with a bound on the working time of an individual in an interval, everybody the program allows works at most that long in it, if no activity begins before the interval and ends after it; a choice that keeps the bound is never cut off.  After adding_constraint with individuals that have to do or must not do activities, exactly the assignments remain in which they do, or do not, as far as they can do them at all.  build_objective_function_from_a_solution counts the activities taken from individuals that had them and raises KeyError exactly if one of these cannot be done by its individual.  The code disagrees: an activity that begins before the interval and ends after it is not counted; a duty of somebody who is not free is silently dropped; entries to be ignored count all the same.", "quantifier": "all programs, intervals, bounds, duties and earlier solutions", "why_tests_cant": "Numbers of activities and lengths of intervals are arbitrary.", "anchors": ["skdecide/builders/discrete_optimization/rcpsp/solver/rcpsp_lp_solver_gantt.py: LP_MRCPSP_GANTT_GUROBI.adding_constraint", "skdecide/builders/discrete_optimization/rcpsp/solver/rcpsp_lp_solver_gantt.py: LP_MRCPSP_GANTT_GUROBI.build_objective_function_from_a_solution"]}
{"id": "C202", "title": "Default functions of genetic programs", "statement": "Every function of the default library, called with two arguments from -1 to 1 as compute_graph does, returns a number from -1 to 1 and raises nothing.  So a program with these functions, however often it has been run on inputs from -1 to 1, gives outputs from -1 to 1.  round goes to a nearest whole number, halves to the even one; min and max return a least and a greatest argument; exp, sqrtxy, acos, asin, atan, sum, aminus and pow reach the ends of the range.  Outside the range asin and acos raise ValueError.  The code disagrees: inv returns the sign of its argument, which is the inverse only for 1 and -1.", "quantifier": "all arguments, genomes, sizes of programs and sequences of inputs", "why_tests_cant": "Arguments are real numbers and programs of any size.", "anchors": ["skdecide/hub/solver/cgp/pycgp/cgpfunctions.py: f_sum", "skdecide/hub/solver/cgp/pycgp/cgpfunctions.py: f_exp", "skdecide/hub/solver/cgp/pycgp/cgpfunctions.py: f_inv", "skdecide/hub/solver/cgp/pycgp/cgpfunctions.py: f_round", "skdecide/hub/solver/cgp/cgp.py: CGPWrapper._get_default_function_lib"]}
{"id": "C203", "title": "Loading multi-skill projects", "statement": "If no two employees have the same name and no resource has the name of one, load_multiskill_domain makes of every employee a unit, in their order, with exactly its skills, always available once and renewable; every resource gets no skills, its availability at time 0, and is renewable unless it is listed as not.  A resource without availabilities raises IndexError.  The code disagrees: calendars of employees and all availabilities after time 0 make no difference to the domain; a resource named like an employee loses its availability.", "quantifier": "all projects and names", "why_tests_cant": "Numbers of employees, skills and resources are arbitrary.", "anchors": ["skdecide/hub/domain/rcpsp/rcpsp_sk_parser.py: load_multiskill_domain"]}
{"id": "C204", "title": "Portfolios of mutations", "statement": "With one weight per mutation, none negative and some positive, the mutation a portfolio applies is one of positive weight, and it is the i-th exactly if the number drawn lies in the share of weight i relative to the sum.  No mutations, another number of weights, weights of sum 0 and weights whose sign differs from that of the sum raise ValueError.  The mutations available for a problem are those of the catalogue for the types present, each as often as there.  The code disagrees: weights that are all negative are accepted, and the most negative one is chosen most often.", "quantifier": "all mutations, weights, numbers drawn, catalogues and types", "why_tests_cant": "Weights and numbers drawn are arbitrary, tests draw few.", "anchors": ["skdecide/builders/discrete_optimization/generic_tools/mutations/mixed_mutation.py: BasicPortfolioMutation, BasicPortfolioMutationTrack", "skdecide/builders/discrete_optimization/generic_tools/mutations/mutation_catalog.py: get_available_mutations"]}
{"id": "C205", "title": "Mutations of project solutions", "statement": "mutate_and_compute_obj of PermutationMutationRCPSP returns, for a new permutation, the objective of the schedule generated from it, and stores that schedule and its permutation; evaluating a mutated solution generates the schedule of the new permutation, and of new modes if the old schedule has a permutation.  The code disagrees: the objective returned with new modes is that of the old schedule; mutate stores the permutation of the old schedule; if the old schedule has no permutation the error is swallowed and new modes are not used; a copy of a mutated solution is evaluated with the schedule from before the mutation.", "quantifier": "all solutions, permutations, modes, ways of generating schedules and objectives", "why_tests_cant": "The value returned looks plausible, and is wrong only until the solution is evaluated again.", "anchors": ["skdecide/builders/discrete_optimization/rcpsp/mutations/mutation_rcpsp.py: PermutationMutationRCPSP", "skdecide/builders/discrete_optimization/rcpsp/rcpsp_model.py: RCPSPSolution.copy, RCPSPSolution.lazy_copy, RCPSPSolution.__setattr__, RCPSPModel.evaluate_function"]}

{
 "claims": [
  {
   "property": "C01",
   "status": "proved",
   "theorems": [
    "Verif.Core.C01_reward_cost_opposite"
   ],
   "note": "All four presence combinations, exact integers for numbers."
  },
  {
   "property": "C02",
   "status": "partial",
   "theorems": [
    "Verif.Core.C02_cast_roundtrip",
    "Verif.Core.C02_sequence_pointwise",
    "Verif.Core.C02_dict_pointwise",
    "Verif.Core.C02_container_cast_succeeds",
    "Verif.Core.C02_memory_to_plain_not_latest",
    "Verif.Core.C02_memory_to_plain_partial"
   ],
   "note": "Round trip, pointwise and dictionary casts proved for all shapes. The memory-to-plain clause is false of the code (it returns the oldest element): negation proved, one-element case kept as partial."
  },
  {
   "property": "C03",
   "status": "proved",
   "theorems": [
    "Verif.Core.C03_defaults_same_agents",
    "Verif.Core.C03_supplied_kept",
    "Verif.Core.C03_cast_keeps_termination"
   ],
   "note": "Defaults per agent and termination flag under casts."
  },
  {
   "property": "C04",
   "status": "proved",
   "theorems": [
    "Verif.Core.C04_cast_keeps_probabilities",
    "Verif.Core.C04_cast_single",
    "Verif.Core.C04_sample_interval",
    "Verif.Core.C04_sample_in_support",
    "Verif.Core.C04_sample_never_invents"
   ],
   "note": "Random draw is a parameter; weights are exact integers."
  },
  {
   "property": "C05",
   "status": "partial",
   "theorems": [
    "Verif.Domain.C05_finite_history_partial",
    "Verif.Domain.C05_markovian",
    "Verif.Domain.C05_memoryless",
    "Verif.Domain.C05_unbounded_history_raises",
    "Verif.Domain.C05_order_one_loses_deque"
   ],
   "note": "Proved for bounded histories of order other than 1, Markovian and memoryless domains. False for unbounded history (every step raises) and for order 1 without the Markovian class: both negations proved."
  },
  {
   "property": "C06",
   "status": "partial",
   "theorems": [
    "Verif.Domain.C06_rollout_episode_faithful",
    "Verif.Domain.C06_unlimited",
    "Verif.Domain.C06_rollout_episode_lists_partial",
    "Verif.Domain.C06_rollout_episode_overwrites_memory",
    "Verif.Domain.C06_rollout_episode_requires_memory"
   ],
   "note": "Proved for rollout with any step limit and without one; for rollout_episode only when observation and memory coincide (negation proved otherwise)."
  },
  {
   "property": "C07",
   "status": "partial",
   "theorems": [
    "Verif.Domain.C07_rollout_runs_n_episodes_partial",
    "Verif.Domain.C07_save_runs_one_episode"
   ],
   "note": "Proved without a result directory; with one the code always runs a single episode (proved)."
  },
  {
   "property": "C08",
   "status": "proved",
   "theorems": [
    "Verif.Domain.C08_match_exact"
   ],
   "note": "Class hierarchy, requirement pruning and candidate filtering; isinstance is a parameter assumed closed under bases."
  },
  {
   "property": "C09",
   "status": "partial",
   "theorems": [
    "Verif.Par.C09_wake_first",
    "Verif.Par.C09_wake_waits",
    "Verif.Par.C09_wake_asked",
    "Verif.Par.C09_own_result_partial",
    "Verif.Par.C09_can_finish_partial",
    "Verif.Par.C09_failed_send_leaks",
    "Verif.Par.C09_ipc_failure_hangs",
    "Verif.Par.C09_busy_launch_mixes",
    "Verif.Par.C09_wake_race"
   ],
   "note": "Proved for every number of workers and every interleaving of atomic steps when callers only launch on workers that are not active (always with i=None from one thread). Asking for an active worker mixes results (C09_busy_launch_mixes), two threads in wake_up_domain can get the same worker (C09_wake_race), a job that cannot be pickled blocks its worker forever (C09_failed_send_leaks), and with the notification socket a raising call makes get_result wait forever (C09_ipc_failure_hangs). Starting and closing of processes is not modelled."
  },
  {
   "property": "C10",
   "status": "partial",
   "theorems": [
    "Verif.Shm.C10_arguments",
    "Verif.Shm.C10_results_partial",
    "Verif.Shm.C10_results_overlap",
    "Verif.Shm.C10_results_spill",
    "Verif.Shm.C10_other_workers",
    "Verif.Shm.C10_other_workers_results_partial",
    "Verif.Shm.C10_layout_disjoint",
    "Verif.Shm.C10_enough_registers"
   ],
   "note": "Proved for arguments (all layouts with distinct types, all workers). For results the register counter grows by one instead of by the number of arrays, so two results of a multi-array type overlap (C10_results_overlap) and can spill into the next worker (C10_results_spill); proved when every multi-array type occurs at most once. The flags and conditions are not modelled."
  },
  {
   "property": "C11",
   "status": "proved",
   "theorems": [
    "Verif.Sched.C11_exactly_one_set",
    "Verif.Sched.C11_steps_keep_tasks",
    "Verif.Sched.C11_complete_stays",
    "Verif.Sched.C11_conditional_tasks",
    "Verif.Sched.C11_conditional_tasks_enter"
   ],
   "note": "Deterministic updates and the simulated variant with conditional tasks, any actions and draws. Python sets are duplicate-free lists."
  },
  {
   "property": "C12",
   "status": "proved",
   "theorems": [
    "Verif.Sched.C12_start_proposals_sound",
    "Verif.Sched.C12_start_proposals_complete",
    "Verif.Sched.C12_starts_after_predecessors"
   ],
   "note": "Proposed starts sound and complete; along proposed actions recorded starts follow recorded ends of existing predecessors."
  },
  {
   "property": "C13",
   "status": "partial",
   "theorems": [
    "Verif.Sched.C13_in_use_is_sum_of_needs_partial",
    "Verif.Sched.C13_capacity_partial",
    "Verif.Sched.C13_capacity_proposed",
    "Verif.Sched.C13_only_ongoing_hold",
    "Verif.Sched.C13_zero_duration_leaks",
    "Verif.Sched.C13_resume_without_resources",
    "Verif.Sched.C13_resume_check_raises",
    "Verif.Sched.C13_pause_nonrenewable_raises",
    "Verif.Sched.C13_varying_needs_overuse",
    "Verif.Sched.C13_varying_needs_raise",
    "Verif.Sched.C13_availability_updated"
   ],
   "note": "With constant needs: the amount in use is the sum of what the ongoing tasks declare, on every run in which zero-duration tasks need nothing and resumed tasks find their resources; no overuse on any proposed run when capacities do not shrink; tasks that are not ongoing hold nothing on every run. Negations with witnesses: a zero-duration task never gives its resources back; a proposed resume without resources leaves the task ongoing without resources and the next time step raises; the check for a resume raises; pausing with a non-renewable resource raises; needs varying with time overuse or raise. Availability after a time step is the drawn one for every resource."
  },
  {
   "property": "C14",
   "status": "partial",
   "theorems": [
    "Verif.Sched.C14_completes_at_threshold",
    "Verif.Sched.C14_completes_after_duration_partial",
    "Verif.Sched.C14_long_task_completes_early",
    "Verif.Sched.C14_early_completion"
   ],
   "note": "Exact for drawn durations below 10000. The 0.9999 threshold completes longer tasks early (general statement and witness proved). Progress is exact rational, not float."
  },
  {
   "property": "C15",
   "status": "proved",
   "theorems": [
    "Verif.Sched.C15_clock_step",
    "Verif.Sched.C15_clock_run",
    "Verif.Sched.C15_clock_simulated"
   ],
   "note": "Deterministic and simulated variants."
  },
  {
   "property": "C16",
   "status": "partial",
   "theorems": [
    "Verif.Sched.C16_ready_picks_first",
    "Verif.Sched.C16_time_window_picks_first",
    "Verif.Sched.C16_no_schedule_first_ready",
    "Verif.Sched.C16_precedence_picks_first",
    "Verif.Sched.C16_index_window_picks_first",
    "Verif.Sched.C16_returns_accepted_or_time",
    "Verif.Sched.C16_no_exception",
    "Verif.Sched.C16_gantt_never_catches_up",
    "Verif.Sched.C16_following_within_capacity",
    "Verif.Sched.C16_gantt_tries_only_one",
    "Verif.Sched.C16_precedence_needs_full_schedule"
   ],
   "note": "Every method returns time progress or a start of a ready task that the domain's check accepts; for the five list-based methods the exact candidate list and the first-accepted choice are characterised (iff), with conditions under which they never raise; following any method stays within capacity. Negations: the Gantt method tries only one of the tasks scheduled now, and never starts a task whose scheduled time has passed; 'precedence ready' raises when a task that is not ready is missing from the schedule."
  },
  {
   "property": "C17",
   "status": "partial",
   "theorems": [
    "Verif.Knapsack.C17_optimal_among_processed",
    "Verif.Knapsack.C17_optimal",
    "Verif.Knapsack.C17_needs_numbering",
    "Verif.Knapsack.C17_one_based_raises",
    "Verif.Knapsack.C17_greedy_start_heavy_raises",
    "Verif.Knapsack.C17_np_overweight",
    "Verif.Knapsack.C17_greedy_start_optimal"
   ],
   "note": "Optimality proved for every instance whose items are numbered by position, for every processing order and iteration limit (optimal among the processed items), and with greedy start when no item is too heavy. Outside that the code raises or (numpy variant) returns an overweight packing: negations proved."
  },
  {
   "property": "C18",
   "status": "partial",
   "theorems": [
    "Verif.Knapsack.C18_evaluate",
    "Verif.Knapsack.C18_flip_move",
    "Verif.Knapsack.C18_flip_sequence",
    "Verif.Knapsack.C18_flip_undo",
    "Verif.Knapsack.C18_single_flip_objective_partial",
    "Verif.Knapsack.C18_single_flip_objective_wrong",
    "Verif.Knapsack.C18_mutation_keeps_feasible",
    "Verif.Knapsack.C18_forced_evaluation",
    "Verif.Knapsack.C18_mutation_effect"
   ],
   "note": "Evaluation, satisfiability, bit-flip moves, their sequences and undo, and the knapsack mutation proved. The single-bit mutation reports the old objective when totals are not cached: negation proved, cached case kept as partial."
  },
  {
   "property": "C19",
   "status": "partial",
   "theorems": [
    "Verif.Knapsack.C19_greedy_partial",
    "Verif.Knapsack.C19_best_of_greedy_partial",
    "Verif.Knapsack.C19_heavy_item_raises",
    "Verif.Knapsack.C19_queues"
   ],
   "note": "Complete when no item is heavier than the capacity; with a heavier item the solver always raises IndexError (proved)."
  },
  {
   "property": "C20",
   "status": "partial",
   "theorems": [
    "Verif.Moves.C20_shuffle",
    "Verif.Moves.C20_partial_shuffle",
    "Verif.Moves.C20_swaps",
    "Verif.Moves.C20_permutation_swap",
    "Verif.Moves.C20_permutation_swap_last_fixed",
    "Verif.Moves.C20_permutation_swap_one_raises",
    "Verif.Moves.C20_two_opt_partial",
    "Verif.Moves.C20_two_opt_not_every_pair",
    "Verif.Moves.C20_two_opt_mutation",
    "Verif.Moves.C20_shuffle_effect",
    "Verif.Moves.C20_partial_shuffle_effect",
    "Verif.Moves.C20_swap_effect",
    "Verif.Moves.C20_two_opt_effect"
   ],
   "note": "Shuffle, partial shuffle, swaps, and every draw of the mutations proved. A two-opt move built with a reversed pair (i > j+1) duplicates elements: negation proved. The swap mutation raises on one-element permutations and never moves the last position (both proved)."
  },
  {
   "property": "C21",
   "status": "partial",
   "theorems": [
    "Verif.Moves.C21_bit_flip",
    "Verif.Moves.C21_bit_flip_effect",
    "Verif.Moves.C21_shuffle",
    "Verif.Moves.C21_two_opt",
    "Verif.Moves.C21_swaps_partial",
    "Verif.Moves.C21_swaps_reverse_restores",
    "Verif.Moves.C21_swaps_not_undone"
   ],
   "note": "Bit flip, shuffle, two-opt proved. Several swaps are undone in the same order: negation proved, disjoint swaps proved, reverse order proved to be a correct undo."
  },
  {
   "property": "C22",
   "status": "partial",
   "theorems": [
    "Verif.Results.C22_best_partial",
    "Verif.Results.C22_empty_store_raises",
    "Verif.Results.C22_explicit_best_kept",
    "Verif.Results.C22_last_best",
    "Verif.Results.C22_stored_once",
    "Verif.Results.C22_last_best_defined"
   ],
   "note": "Proved for stores constructed with at least one solution; an empty store raises AttributeError on the first addition and an explicit best is never compared (both proved)."
  },
  {
   "property": "C23",
   "status": "proved",
   "theorems": [
    "Verif.Results.C23_front_exact",
    "Verif.Results.C23_order_independent",
    "Verif.Results.C23_front_covers",
    "Verif.Results.C23_extreme_points"
   ],
   "note": "Front equals the non-dominated sublist (exact order and multiplicity), order independence, coverage, extreme points."
  },
  {
   "property": "C24",
   "status": "proved",
   "theorems": [
    "Verif.Results.C24_comparisons",
    "Verif.Results.C24_strict_order",
    "Verif.Results.C24_scaling",
    "Verif.Results.C24_eq_not_transitive"
   ],
   "note": "Fitness vectors of equal length, exact integers."
  },
  {
   "property": "C25",
   "status": "partial",
   "theorems": [
    "Verif.LocalSearch.C25_stored",
    "Verif.LocalSearch.C25_best_partial",
    "Verif.LocalSearch.C25_climb_monotone",
    "Verif.LocalSearch.C25_objective_matches",
    "Verif.LocalSearch.C25_minimising_reports_worst",
    "Verif.LocalSearch.C25_restart_mismatch"
   ],
   "note": "Both directions: the store holds a solution at least as good as everything evaluated; hill climbing never worsens. The reported best is proved for maximisation only: the store is created without the direction, so when minimising the worst is reported (negation proved)."
  },
  {
   "property": "C26",
   "status": "partial",
   "theorems": [
    "Verif.Rcpsp.C26_activities",
    "Verif.Rcpsp.C26_modes",
    "Verif.Rcpsp.C26_durations",
    "Verif.Rcpsp.C26_precedence",
    "Verif.Rcpsp.C26_renewable",
    "Verif.Rcpsp.C26_nonrenewable_partial",
    "Verif.Rcpsp.C26_never_raises",
    "Verif.Rcpsp.C26_feasible_with_room",
    "Verif.Rcpsp.C26_instant_activities_not_charged",
    "Verif.Rcpsp.C26_short_calendar_raises",
    "Verif.Rcpsp.C26_cycle_raises"
   ],
   "note": "Activities, modes, durations, precedences and renewable capacities proved for every result flagged feasible; never raises on well-formed instances; feasible when there is room. Non-renewable totals only for activities that take time: C26_instant_activities_not_charged shows the code never charges the others."
  },
  {
   "property": "C27",
   "status": "proved",
   "theorems": [
    "Verif.Rcpsp.C27_priority",
    "Verif.Rcpsp.C27_earliest"
   ],
   "note": "Priority rule and minimality of the start against what was placed before, for every activity of every feasible result."
  },
  {
   "property": "C28",
   "status": "partial",
   "theorems": [
    "Verif.Rcpsp.C28_accepts_iff_partial",
    "Verif.Rcpsp.C28_sound_all_times",
    "Verif.Rcpsp.C28_accepts_generated",
    "Verif.Rcpsp.C28_durations_unchecked",
    "Verif.Rcpsp.C28_late_overload_accepted",
    "Verif.Rcpsp.C28_negative_overload_accepted",
    "Verif.Rcpsp.C28_missing_activity_raises",
    "Verif.Rcpsp.C28_total_violation_raises"
   ],
   "note": "Exact characterisation of acceptance for schedules that contain all activities (C28_accepts_iff_partial); generated schedules are accepted. The full claim fails: durations, times before 0 and after the last end are unchecked, missing activities raise KeyError, a violated total with makespan 0 raises NameError (all with witnesses)."
  },
  {
   "property": "C29",
   "status": "partial",
   "theorems": [
    "Verif.Cpm.C29_dates",
    "Verif.Cpm.C29_feasible",
    "Verif.Cpm.C29_window",
    "Verif.Cpm.C29_critical_iff",
    "Verif.Cpm.C29_path_partial",
    "Verif.Cpm.C29_path_short"
   ],
   "note": "Dates, windows, criticality and existence of the critical path are proved for every well-formed network (consistent edges, acyclic, one source, one sink, at least one mode per activity). The last clause of the statement is false: with a redundant precedence the reported path can skip activities (C29_path_short); equality of its length with the makespan is proved when all edges between activities without slack are tight. `cur_node is not self.source` is modelled as inequality."
  },
  {
   "property": "C30",
   "status": "proved",
   "theorems": [
    "Verif.Tsp.C30_nodes",
    "Verif.Tsp.C30_round_trip",
    "Verif.Tsp.C30_to_original_total",
    "Verif.Tsp.C30_to_from0_total",
    "Verif.Tsp.C30_permutations",
    "Verif.Tsp.C30_swap_leaves_encoding_stale"
   ],
   "note": "Both conversions are mutually inverse, succeed exactly on valid inputs and map permutations to permutations. The swap move leaves the stored encoding stale (C30_swap_leaves_encoding_stale)."
  },
  {
   "property": "C31",
   "status": "partial",
   "theorems": [
    "Verif.Tsp.C31_build",
    "Verif.Tsp.C31_build_np_partial",
    "Verif.Tsp.C31_np_legs_wrong",
    "Verif.Tsp.C31_np_then_swap_wrong",
    "Verif.Tsp.C31_two_opt",
    "Verif.Tsp.C31_two_opt_length",
    "Verif.Tsp.C31_two_opt_no_candidate",
    "Verif.Tsp.C31_intersection_drops_legs",
    "Verif.Tsp.C31_default_tests",
    "Verif.Tsp.C31_swap",
    "Verif.Tsp.C31_swap_backtrack",
    "Verif.Tsp.C31_swap_asymmetric"
   ],
   "note": "Proved for the plain evaluation, two-opt with at least one candidate, and swaps, for symmetric distances. Missing because false of the code: legs of the array evaluation (C31_np_legs_wrong, C31_np_then_swap_wrong), two-opt without candidate (C31_two_opt_no_candidate), legs of the intersection variant (C31_intersection_drops_legs)."
  },
  {
   "property": "C32",
   "status": "proved",
   "theorems": [
    "Verif.Coloring.C32_order",
    "Verif.Coloring.C32_accepts_iff",
    "Verif.Coloring.C32_rejects_iff",
    "Verif.Coloring.C32_count",
    "Verif.Coloring.C32_accepts_iff_count_zero",
    "Verif.Coloring.C32_evaluate",
    "Verif.Coloring.C32_cached_counts_stale",
    "Verif.Coloring.C32_renumber",
    "Verif.Coloring.C32_renumber_accepts",
    "Verif.Coloring.C32_dummy"
   ],
   "note": "The problem accepts exactly the proper colourings, the violation count is zero exactly for accepted ones, renumbering keeps acceptance. The cached colour count is not recomputed (C32_cached_counts_stale)."
  },
  {
   "property": "C33",
   "status": "partial",
   "theorems": [
    "Verif.Facility.C33_accepts_iff_partial",
    "Verif.Facility.C33_within_accepted",
    "Verif.Facility.C33_single_facility_partial",
    "Verif.Facility.C33_accepts_overload",
    "Verif.Facility.C33_costs",
    "Verif.Facility.C33_greedy",
    "Verif.Facility.C33_greedy_gives_up"
   ],
   "note": "As coded the capacity test of each facility overwrites the previous one: acceptance is decided by the facility opened last only (C33_accepts_iff_partial); C33_accepts_overload is the negation witness. Missing: acceptance iff all facilities are within capacity (false of the code)."
  },
  {
   "property": "C34",
   "status": "partial",
   "theorems": [
    "Verif.Vrp.C34_trivial",
    "Verif.Vrp.C34_trivial_maximal",
    "Verif.Vrp.C34_trivial_returns",
    "Verif.Vrp.C34_satisfy_iff_partial",
    "Verif.Vrp.C34_route",
    "Verif.Vrp.C34_trivial_accepted",
    "Verif.Vrp.C34_accepts_unserved",
    "Verif.Vrp.C34_accepts_twice",
    "Verif.Vrp.C34_asymmetric_last_leg"
   ],
   "note": "satisfy checks capacities only: unserved customers and customers served twice are accepted (C34_accepts_unserved, C34_accepts_twice). Proved: exact characterisation of acceptance, the trivial solution serves every customer once within capacity whenever it returns. Missing: acceptance iff every customer is served exactly once (false of the code)."
  },
  {
   "property": "C35",
   "status": "partial",
   "theorems": [
    "Verif.Search.C35_result",
    "Verif.Search.C35_terminates",
    "Verif.Search.C35_start_at_goal_raises",
    "Verif.Search.C35_values_are_costs"
   ],
   "note": "Full statement proved for every domain whose start is not a goal; a start that is a goal makes the solver raise KeyError (proved)."
  },
  {
   "property": "C36",
   "status": "proved",
   "theorems": [
    "Verif.Search.C36_optimal",
    "Verif.Search.C36_admissible_not_enough"
   ],
   "note": "Consistent heuristic; an admissible but inconsistent heuristic does not suffice because expanded states are never reopened (proved by example)."
  },
  {
   "property": "C37",
   "status": "partial",
   "theorems": [
    "Verif.Search.C37_admissible_partial",
    "Verif.Search.C37_monotone_partial",
    "Verif.Search.C37_cycle_overestimates",
    "Verif.Search.C37_cycle_decreases",
    "Verif.Search.C37_start_at_goal_raises"
   ],
   "note": "Proved for domains without cycles. With cycles both halves are false because successors already visited in the trial are skipped: a value becomes infinite although a goal is reachable, and a value decreases (both proved by example). A start at a goal raises."
  },
  {
   "property": "C38",
   "status": "partial",
   "theorems": [
    "Verif.Worlds.C38_greedy",
    "Verif.Worlds.C38_independent_raises"
   ],
   "note": "First action of largest expected reward proved when rewards depend on the next state. When they do not, the solver iterates the action space itself and always raises (proved)."
  },
  {
   "property": "C39",
   "status": "partial",
   "theorems": [
    "Verif.Worlds.C39_maze_step",
    "Verif.Worlds.C39_maze_parse",
    "Verif.Worlds.C39_maze_run",
    "Verif.Worlds.C39_short_row_raises",
    "Verif.Worlds.C39_grid_step",
    "Verif.Worlds.C39_grid_start_goal"
   ],
   "note": "Maze: proved for texts whose lines are all as long as the first; a shorter line makes stepping there raise (proved). Grid: proved for all sizes. C50 covers path costs."
  },
  {
   "property": "C40",
   "status": "partial",
   "theorems": [
    "Verif.Worlds.C40_score",
    "Verif.Worlds.C40_symmetric",
    "Verif.Worlds.C40_all_exact",
    "Verif.Worlds.C40_longer_guess_raises",
    "Verif.Worlds.C40_codes",
    "Verif.Worlds.C40_in_space_partial",
    "Verif.Worlds.C40_win_outside_space",
    "Verif.Worlds.C40_all_misplaced_outside_space"
   ],
   "note": "Score, symmetry, all-exact, enumeration of codes and errors proved. The winning score and an all-misplaced score lie outside the declared observation space (negations proved)."
  },
  {
   "property": "C41",
   "status": "proved",
   "theorems": [
    "Verif.Worlds.C41_rewards",
    "Verif.Worlds.C41_length"
   ],
   "note": "Reward table against the rules, game length, zero sum of every round played."
  },
  {
   "property": "C42",
   "status": "proved",
   "theorems": [
    "Verif.Worlds.C42_members_round_trip",
    "Verif.Worlds.C42_indices_round_trip",
    "Verif.Worlds.C42_duplicate_index_lost",
    "Verif.Worlds.C42_errors",
    "Verif.Worlds.C42_samples_are_elements",
    "Verif.Worlds.C42_enum_json"
   ],
   "note": "List and enum spaces. Indices of duplicated elements are not preserved (proved); members always are."
  },
  {
   "property": "C43",
   "status": "proved",
   "theorems": [
    "Verif.Core.C43_bound_constraint",
    "Verif.Core.C43_bad_inequality_rejected",
    "Verif.Core.C43_strict_differs_at_bound",
    "Verif.Core.C43_cast_constraint"
   ],
   "note": "All four inequalities, rejection of other strings, casts."
  },
  {
   "property": "C44",
   "status": "proved",
   "theorems": [
    "Verif.Objectives.C44_same",
    "Verif.Objectives.C44_weighted",
    "Verif.Objectives.C44_missing_raises",
    "Verif.Objectives.C44_ranking",
    "Verif.Objectives.C44_order_irrelevant",
    "Verif.Objectives.C44_default"
   ],
   "note": "All three handling modes, errors included."
  },
  {
   "property": "C45",
   "status": "partial",
   "theorems": [
    "Verif.Durations.C45_uniform",
    "Verif.Durations.C45_uniform_bad_bounds",
    "Verif.Durations.C45_bounds_tight",
    "Verif.Durations.C45_uniform_bounds",
    "Verif.Durations.C45_remembered",
    "Verif.Durations.C45_first_draw",
    "Verif.Durations.C45_uncertain_forgets",
    "Verif.Durations.C45_fixed_partial",
    "Verif.Durations.C45_fixed_ignores_progress"
   ],
   "note": "Uniform and enumerable distributions and remembering in simulated domains proved. Uncertain domains remember nothing; deterministic distribution and bounds ignore progress (negations proved)."
  },
  {
   "property": "C46",
   "status": "proved",
   "theorems": [
    "Verif.Moves.C46_integer_mutation",
    "Verif.Moves.C46_integer_mutation_defined",
    "Verif.Moves.C46_integer_mutation_effect"
   ],
   "note": "Random choices are parameters."
  },
  {
   "property": "C47",
   "status": "partial",
   "theorems": [
    "Verif.Results.C47_heap_head_partial",
    "Verif.Results.C47_minimisation_heap_loses_best",
    "Verif.Results.C47_maximisation_heap_misses_value",
    "Verif.Results.C47_final_heap_sorted",
    "Verif.Results.C47_heap_bounded"
   ],
   "note": "The heap head is the best for maximisation, and for minimisation without a limit. Both full-content claims are false of the code: two negations proved."
  },
  {
   "property": "C48",
   "status": "partial",
   "theorems": [
    "Verif.Sched.C48_goal_all_entered_complete_partial",
    "Verif.Sched.C48_goal_iff_all_complete",
    "Verif.Sched.C48_goal_misses_conditional_task"
   ],
   "note": "Proved without conditional tasks, and for tasks that entered the state; false for a conditional task whose condition appears in the last step (witness proved)."
  },
  {
   "property": "C49",
   "status": "proved",
   "theorems": [
    "Verif.Sched.C49_accepted_start_starts",
    "Verif.Sched.C49_start_charges"
   ],
   "note": "For every state with non-overlapping sets, every domain (constant or varying needs) and every drawn duration. For constant needs the amounts in use grow by exactly the needs of the mode and the requested units, and no other task changes."
  },
  {
   "property": "C50",
   "status": "proved",
   "theorems": [
    "Verif.Worlds.C50_maze_manhattan_admissible",
    "Verif.Worlds.C50_grid_manhattan_exact"
   ],
   "note": "Maze: any text; grid: exact distance."
  },
  {
   "property": "C51",
   "status": "proved",
   "theorems": [
    "Verif.Search.C51_weighted_bound"
   ],
   "note": ""
  },
  {
   "property": "C52",
   "status": "proved",
   "theorems": [
    "Verif.Search.C52_stops_optimal"
   ],
   "note": "Whole solver, all trials, best policy kept between trials."
  },
  {
   "property": "C53",
   "status": "partial",
   "theorems": [
    "Verif.LocalSearch.C53_front_partial",
    "Verif.LocalSearch.C53_moves",
    "Verif.LocalSearch.C53_minimising_wrong_front"
   ],
   "note": "Maximisation, handler without restarts; when minimising the front is computed in the wrong direction (negation proved)."
  },
  {
   "property": "C54",
   "status": "proved",
   "theorems": [
    "Verif.Objectives.C54_methods",
    "Verif.Objectives.C54_robust",
    "Verif.Objectives.C54_no_scenario_raises"
   ],
   "note": "Methods MEAN, MIN, MAX; PONDERATION is modelled; MEDIAN and PERCENTILE are not."
  },
  {
   "property": "C55",
   "status": "proved",
   "theorems": [
    "Verif.Coloring.C55_greedy",
    "Verif.Coloring.C55_no_answer"
   ],
   "note": "networkx strategies are parameters: proper colourings or an exception."
  },
  {
   "property": "C56",
   "status": "partial",
   "theorems": [
    "Verif.Tsp.C56_never_true",
    "Verif.Tsp.C56_rejects_every_tour",
    "Verif.Tsp.C56_decides_partial"
   ],
   "note": "False of the code: satisfy never answers True and rejects every tour (C56_never_true, C56_rejects_every_tour). C56_decides_partial says what it decides."
  },
  {
   "property": "C57",
   "status": "partial",
   "theorems": [
    "Verif.Rcpsp.C57_activities",
    "Verif.Rcpsp.C57_durations",
    "Verif.Rcpsp.C57_precedence_partial",
    "Verif.Rcpsp.C57_renewable_partial",
    "Verif.Rcpsp.C57_started_task_moved",
    "Verif.Rcpsp.C57_consumption_forgotten"
   ],
   "note": "Completed tasks kept, the rest scheduled once with durations, precedences and renewable capacities. The full claim fails: started tasks may be moved (C57_started_task_moved) and the consumption of completed tasks is forgotten (C57_consumption_forgotten)."
  },
  {
   "property": "C58",
   "status": "proved",
   "theorems": [
    "Verif.Rcpsp.C58_permutation"
   ],
   "note": "For every schedule whose keys are 1..n."
  },
  {
   "property": "C59",
   "status": "partial",
   "theorems": [
    "Verif.Cpm.C59_order_partial",
    "Verif.Cpm.C59_zero_ties"
   ],
   "note": "Proved when activities without duration are listed before their successors in the dictionary; without that the order can violate a precedence (C59_zero_ties)."
  },
  {
   "property": "C60",
   "status": "partial",
   "theorems": [
    "Verif.Cpm.C60_returns_last_blocked",
    "Verif.Cpm.C60_free_raises"
   ],
   "note": "The claim is false: the function returns the last time at which the activity does NOT fit (C60_returns_last_blocked) and raises TypeError when it fits everywhere (C60_free_raises). The theorems describe the actual behaviour for all inputs."
  },
  {
   "property": "C61",
   "status": "partial",
   "theorems": [
    "Verif.Sched.C61_proposed_never_raise_partial",
    "Verif.Sched.C61_non_preemptive_never_raise",
    "Verif.Sched.C61_preemptive_raises"
   ],
   "note": "Proved for every domain without preemptive tasks; with preemption proved when resumed tasks find their resources. Negation with a witness: in a completely described preemptive domain a sequence of proposed actions ends in a KeyError."
  },
  {
   "property": "C62",
   "status": "partial",
   "theorems": [
    "Verif.Sched.C62_eager_play_reaches_goal_partial",
    "Verif.Sched.C62_zero_duration_blocks"
   ],
   "note": "Proved with an explicit bound for domains without preemption, skills or non-renewable resources, when zero-duration tasks need nothing. Negation with a witness: a zero-duration task that needs a resource blocks eager play for ever."
  },
  {
   "property": "C63",
   "status": "partial",
   "theorems": [
    "Verif.Sched.C63_proposals",
    "Verif.Sched.C63_only_last_mode_proposed"
   ],
   "note": "Pauses, resumes, time progress and the shape of all proposals are exact. Negation with a witness: a task with two feasible modes is proposed only in the last one, because the inner dictionary is overwritten."
  },
  {
   "property": "C64",
   "status": "proved",
   "theorems": [
    "Verif.CppAStar.C64_tells_plan",
    "Verif.CppAStar.C64_gives_up_rightly",
    "Verif.CppAStar.C64_finishes",
    "Verif.CppAStar.C64_library_queue_lawful",
    "Verif.CppAStar.C64_goal_root_value_infinite"
   ],
   "note": "For a solver with an empty graph (as after clear). Finite graphs are needed only for termination. Any order of the queue will do; the library's heap is shown lawful. Disagreement beside the claim: at a state that is itself a goal the value reported is infinity (C64_goal_root_value_infinite)."
  },
  {
   "property": "C65",
   "status": "partial",
   "theorems": [
    "Verif.CppAStar.C65_optimal_partial",
    "Verif.CppAStar.C65_optimal_on_trees",
    "Verif.CppAStar.C65_library_queue_suboptimal"
   ],
   "note": "Proved for a queue that always gives the node whose score is least now, and for the library's binary heap on trees. Negation with a witness for the code as written: the scores of queued nodes are changed in place, which breaks the heap order, and with the null heuristic a plan of cost 20 is returned where one of cost 19 exists (C65_library_queue_suboptimal)."
  },
  {
   "property": "C66",
   "status": "partial",
   "theorems": [
    "Verif.CppAStar.C66_solved_again_partial",
    "Verif.CppAStar.C66_second_solve_fails",
    "Verif.CppAStar.C66_second_solve_wrong",
    "Verif.CppAStar.C66_best_action_overwritten"
   ],
   "note": "Proved only for a state that is solved already. Negations with witnesses: a second solve from another state can fail though a plan exists, can return a plan and value that are wrong and change values reported before, and can change the best action of a solved state into one that is not applicable there."
  },
  {
   "property": "C67",
   "status": "partial",
   "theorems": [
    "Verif.Lrtdp.C67_lower_bound",
    "Verif.Lrtdp.C67_no_labels_overestimates",
    "Verif.Lrtdp.C67_goal_first_overestimates"
   ],
   "note": "Proved with labels on and no call from a goal, for any draws, any number of calls and any stopping times. Negations with witnesses: without labels goals are updated like other states and values exceed the optimal cost; a first call from a goal makes that goal an ordinary state and its cost grows. Sequential execution, one rollout at a time, no online removal of nodes."
  },
  {
   "property": "C68",
   "status": "partial",
   "theorems": [
    "Verif.Lrtdp.C68_labels_right_partial",
    "Verif.Lrtdp.C68_label_final",
    "Verif.Lrtdp.C68_depth_labels_wrong"
   ],
   "note": "Permanence of labels is proved without conditions on the depth. That a label means small residuals and labelled outcomes is proved when the maximal depth exceeds what the reachable states can push. Negation with a witness: reaching the maximal depth counts as passing the check, so states are labelled whose value is far from right."
  },
  {
   "property": "C69",
   "status": "partial",
   "theorems": [
    "Verif.Lrtdp.C69_near_optimal_partial",
    "Verif.Lrtdp.C69_near_optimal_discounted_partial"
   ],
   "note": "Same depth condition as C68. Bounds: epsilon times the expected number of steps without discount (when the policy reaches a goal with positive probability), epsilon/(1-discount) with discount. That labels are given eventually is not proved."
  },
  {
   "property": "C70",
   "status": "partial",
   "theorems": [
    "Verif.Lrtdp.C70_no_crash",
    "Verif.Lrtdp.C70_root_has_action",
    "Verif.Lrtdp.C70_queries_safe",
    "Verif.Lrtdp.C70_dead_end_crashes",
    "Verif.Lrtdp.C70_goal_without_action_crashes"
   ],
   "note": "Proved with labels on and without dead ends; asking never crashes. Negations with witnesses: a state without actions is dereferenced as a null pointer; with labels off so is a goal without actions."
  },
  {
   "property": "C71",
   "status": "partial",
   "theorems": [
    "Verif.AoStar.C71_defined",
    "Verif.AoStar.C71_ends",
    "Verif.AoStar.C71_policy",
    "Verif.AoStar.C71_optimal",
    "Verif.AoStar.C71_attained",
    "Verif.AoStar.C71_inadmissible"
   ],
   "note": "Proved for calls from states that are no goals, with any order of sets, any number (at least one) of tips per round and any number of calls: a finished call defines a solution; its policy reaches a goal within finitely many steps and costs exactly the answered value, in every domain; no cost bound above the heuristic is smaller; on finite domains without cycles and dead ends the calls end. Negation with witness: an inadmissible heuristic gives a policy that is not optimal. Missing: calls from goals (see C73), the parallel execution policy, rounding of floats."
  },
  {
   "property": "C72",
   "status": "partial",
   "theorems": [
    "Verif.AoStar.C72_ends",
    "Verif.AoStar.C72_no_cycle",
    "Verif.AoStar.C72_hangs",
    "Verif.AoStar.C72_reported",
    "Verif.AoStar.C72_layered_partial",
    "Verif.AoStar.C72_false_alarm",
    "Verif.AoStar.C72_false_alarm_tips"
   ],
   "note": "Proved: what finished calls explored has no cycle; with detection every call ends with an answer or the report; when every policy may return to the start, the call never ends without detection and is reported with it; in layered domains with one tip per round detection changes nothing. Negations with witnesses: a mere shortcut, or two tips per round in a layered domain, is reported as a cycle."
  },
  {
   "property": "C73",
   "status": "partial",
   "theorems": [
    "Verif.AoStar.C73_only_error",
    "Verif.AoStar.C73_stuck_crash",
    "Verif.AoStar.C73_stuck_no_answer",
    "Verif.AoStar.C73_goal_root",
    "Verif.AoStar.C73_no_tips",
    "Verif.AoStar.C73_goal_poisoned"
   ],
   "note": "Proved: when every state can surely be left by some action, the report of a cycle is the only error. Negations: a state without actions, or one whose actions may all stay in it, dereferences a null pointer (also with detection) and no state leading surely there is answered; a call from a goal stores it with infinite value, after which a state that leads to it crashes; no tips per round hangs."
  },
  {
   "property": "C74",
   "status": "partial",
   "theorems": [
    "Verif.Iw.C74_tells",
    "Verif.Iw.C74_finishes",
    "Verif.Iw.C74_library_queue_lawful",
    "Verif.Iw.C74_goal_root",
    "Verif.Iw.C74_negative_costs_hang",
    "Verif.Iw.C74_time_left_breaks_plan",
    "Verif.Iw.C74_second_solve_crashes",
    "Verif.Iw.C74_not_optimal"
   ],
   "note": "Proved for the default time budget and non-negative costs, any ordering, from a start that is no goal. Negations with witnesses: a negative cost lets the walk back to the root run forever; with time left and another ordering the best action of the root can be inapplicable; solving from a second state without clearing dereferences a null pointer. A goal as start gets no solution and an infinite value, and plans need not be cheapest."
  },
  {
   "property": "C75",
   "status": "proved",
   "theorems": [
    "Verif.Iw.C75_gives_up_rightly",
    "Verif.Iw.C75_finds_plan_iff",
    "Verif.Iw.C75_coarse_features_incomplete",
    "Verif.Iw.C75_no_features_no_search",
    "Verif.Iw.C75_root_with_fewer_features"
   ],
   "note": "Non-negative costs, default time budget. Witnesses that the hypotheses are needed: states that look alike, no features at all, a start with fewer features than other states."
  },
  {
   "property": "C76",
   "status": "partial",
   "theorems": [
    "Verif.Iw.C76_tuples",
    "Verif.Iw.C76_novelty",
    "Verif.Iw.C76_one_width",
    "Verif.Iw.C76_width_guarantee_partial",
    "Verif.Iw.C76_width_one",
    "Verif.Iw.C76_chain_shortest"
   ],
   "note": "Proved: enumeration, novelty, one width per call; the guarantee for unit costs, the default ordering and a queue that always gives a node of least score, for width 1 also with the queue of the library. Missing: the queue of the library (whose entries change their scores) for larger widths."
  },
  {
   "property": "C77",
   "status": "partial",
   "theorems": [
    "Verif.Bfws.C77_tells",
    "Verif.Bfws.C77_finishes",
    "Verif.Bfws.C77_finds_plan_iff",
    "Verif.Bfws.C77_library_queue_lawful",
    "Verif.Bfws.C77_goal_root",
    "Verif.Bfws.C77_not_optimal",
    "Verif.Bfws.C77_second_solve_crashes"
   ],
   "note": "Proved for a fresh solver and a start that is no goal, for any costs (negative ones too), heuristic, features and queue. Negations with witnesses: solving from a second state without clearing dereferences a null pointer; a goal as start gets no solution and an infinite value. Plans need not be cheapest."
  },
  {
   "property": "C78",
   "status": "proved",
   "theorems": [
    "Verif.Bfws.C78_greedy",
    "Verif.Bfws.C78_misled"
   ],
   "note": "With the queue of the library. A witness shows that without the hypothesis the solver can run forever next to a goal."
  },
  {
   "property": "C79",
   "status": "partial",
   "theorems": [
    "Verif.Bfws.C79_novelty",
    "Verif.Bfws.C79_novelty_range",
    "Verif.Bfws.C79_second_evaluation",
    "Verif.Bfws.C79_more_new_features_come_later",
    "Verif.Bfws.C79_stale_heap",
    "Verif.Bfws.C79_search"
   ],
   "note": "The measure is proved for every history. Expansion in order of novelty is refuted: a node generated twice has its novelty changed while it lies in the heap. Also, more new features rank a node later, against the comment in the code."
  },
  {
   "property": "C80",
   "status": "partial",
   "theorems": [
    "Verif.Ilao.C80_lower_bound",
    "Verif.Ilao.C80_goals",
    "Verif.Ilao.C80_applicable",
    "Verif.Ilao.C80_goal_first_refuted"
   ],
   "note": "Proved for all sequences of calls from states that are no goals, for any bound on the costs that some policy attains. Negation with a witness: a call from a goal makes it an ordinary state, and later values are too high."
  },
  {
   "property": "C81",
   "status": "partial",
   "theorems": [
    "Verif.Ilao.C81_returns_partial",
    "Verif.Ilao.C81_optimality_refuted",
    "Verif.Ilao.C81_complete_refuted"
   ],
   "note": "Proved for domains without dead ends: an applicable action, consistency of the value at the start up to discount times epsilon, and actions up to states that carry the label solved. Negations with witnesses: the value 63/25 is reported and a policy of cost 9 followed although 3 is optimal; the policy told leads to a state without an action, behind a state labelled solved."
  },
  {
   "property": "C82",
   "status": "partial",
   "theorems": [
    "Verif.Ilao.C82_no_exception",
    "Verif.Ilao.C82_dead_end_refuted",
    "Verif.Ilao.C82_dead_root_hangs",
    "Verif.Ilao.C82_epsilon_hangs",
    "Verif.Ilao.C82_goal_returns"
   ],
   "note": "No exception if every state that is no goal has an action. Negations: a dead end behind another state dereferences a null pointer; a dead end as start, and any epsilon that is not positive, never return."
  },
  {
   "property": "C83",
   "status": "proved",
   "theorems": [
    "Verif.Pile.C83_feasible",
    "Verif.Pile.C83_permutation"
   ],
   "note": "For every rule, draw and order of sets, given a source without predecessors, duration and needs, and needs and capacities that are not negative."
  },
  {
   "property": "C84",
   "status": "partial",
   "theorems": [
    "Verif.Pile.C84_ends",
    "Verif.Pile.C84_solves",
    "Verif.Pile.C84_infeasible",
    "Verif.Pile.C84_nondelay",
    "Verif.Pile.C84_rule_partial",
    "Verif.Pile.C84_rule_refuted"
   ],
   "note": "Ending, success, IndexError for infeasible projects and no idle waiting are proved. The rule is followed only up to simultaneous ends: negation with a witness where two activities end together."
  },
  {
   "property": "C85",
   "status": "partial",
   "theorems": [
    "Verif.Pile.C85_feasible",
    "Verif.Pile.C85_solves",
    "Verif.Pile.C85_missing",
    "Verif.Pile.C85_priority_partial",
    "Verif.Pile.C85_priority_refuted",
    "Verif.Pile.C85_modes_refuted",
    "Verif.Pile.C85_consumed"
   ],
   "note": "Feasibility, success and rejection of incomplete lists are proved. Negations: the list is not followed when two activities end together; the reported modes are shifted by one activity; the list of the caller is emptied, so a second call with it raises ValueError."
  },
  {
   "property": "C86",
   "status": "partial",
   "theorems": [
    "Verif.Pile.Calendar.C86_feasible",
    "Verif.Pile.Calendar.C86_permutation",
    "Verif.Pile.Calendar.C86_horizon",
    "Verif.Pile.Calendar.C86_nonrenewable_refuted"
   ],
   "note": "Everything but the non-renewable resources is proved for every calendar, rule, draw and order of sets; also that nothing runs beyond the 100 times added to the calendar. Negation: non-renewable resources are booked only while an activity runs (the second table is written but never read)."
  },
  {
   "property": "C87",
   "status": "partial",
   "theorems": [
    "Verif.Pile.Calendar.C87_solves_partial",
    "Verif.Pile.Calendar.C87_errors",
    "Verif.Pile.Calendar.C87_index_refuted",
    "Verif.Pile.Calendar.C87_end_refuted",
    "Verif.Pile.Calendar.C87_waiting_refuted",
    "Verif.Pile.Calendar.C87_slot_refuted"
   ],
   "note": "Proved: a solution after at most n_jobs + 3 rounds if no cycle, every activity fits alone at all times and the durations sum to less than the calendar plus 100; IndexError is the only exception. Negations: IndexError on a long activity, waiting for ever though a schedule exists, idle waiting for the end of another activity, one time too many demanded."
  },
  {
   "property": "C88",
   "status": "partial",
   "theorems": [
    "Verif.Mcts.C88_runs_partial",
    "Verif.Mcts.C88_defined",
    "Verif.Mcts.C88_best",
    "Verif.Mcts.C88_root",
    "Verif.Mcts.C88_goal_refuted"
   ],
   "note": "All parts are proved; that solve does not fail under the assumption that every state, terminal or not, has an applicable action and every applicable action a next state. Negation: a goal without actions one step from the root makes every solve with max_depth of at least two throw, for all draws, since the simulation does not look whether its first state is terminal."
  },
  {
   "property": "C89",
   "status": "partial",
   "theorems": [
    "Verif.Mcts.C89_bounds",
    "Verif.Mcts.C89_geometric",
    "Verif.Mcts.C89_visits",
    "Verif.Mcts.C89_cycle_refuted"
   ],
   "note": "The discounted bound and the counts (at least one per rollout) are proved for all runs and sequences of calls. Negation: in a cycle a rollout is counted more than once and the value exceeds all that can be earned within max_depth steps (the graph is backed up through the cycle)."
  },
  {
   "property": "C90",
   "status": "proved",
   "theorems": [
    "Verif.Mcts.C90_explored",
    "Verif.Mcts.C90_unbounded",
    "Verif.Mcts.C90_ucb1"
   ],
   "note": "For any bonus that eventually forces rarely tried actions; the bonus of the code over the reals is shown to be one for every positive constant."
  },
  {
   "property": "C91",
   "status": "partial",
   "theorems": [
    "Verif.Mcts.C91_mean",
    "Verif.Mcts.C91_one_step_partial",
    "Verif.Mcts.C91_terminal_refuted"
   ],
   "note": "Proved for search depth one, and for terminal states beyond which nothing is paid. Negation: if a step beyond a terminal state costs more than was earned, the best action is the wrong one for every number of rollouts, all draws and all bonuses."
  },
  {
   "property": "C92",
   "status": "partial",
   "theorems": [
    "Verif.MultiSkill.C92_activities",
    "Verif.MultiSkill.C92_modes",
    "Verif.MultiSkill.C92_durations",
    "Verif.MultiSkill.C92_precedence",
    "Verif.MultiSkill.C92_renewable",
    "Verif.MultiSkill.C92_nonrenewable_partial",
    "Verif.MultiSkill.C92_priority",
    "Verif.MultiSkill.C92_earliest",
    "Verif.MultiSkill.C92_never_raises",
    "Verif.MultiSkill.C92_ends_at_horizon_refuted",
    "Verif.MultiSkill.C92_instant_activities_not_charged",
    "Verif.MultiSkill.C92_cycle_raises",
    "Verif.MultiSkill.C92_sink_with_skill_raises"
   ],
   "note": "Activities, modes, durations, precedences, renewable resources, priority and earliest start are proved for complete schedules, and that generation never raises on well-formed instances. Non-renewable resources only for activities that take time (the others are never charged, with witness). Negation: an activity that would end exactly at the horizon is never placed, whatever the horizon multiplier, although the check accepts such a schedule. A cycle raises KeyError, a skill needed by the sink IndexError."
  },
  {
   "property": "C93",
   "status": "partial",
   "theorems": [
    "Verif.MultiSkill.C93_at_work",
    "Verif.MultiSkill.C93_one_place",
    "Verif.MultiSkill.C93_noted_skills",
    "Verif.MultiSkill.C93_levels",
    "Verif.MultiSkill.C93_one_worker",
    "Verif.MultiSkill.C93_incomplete_lists_refuted",
    "Verif.MultiSkill.C93_idle_worker_blocked"
   ],
   "note": "Presence, one place at a time and noted skills for all lists; levels, and one worker per activity, for lists that name every worker. Negations: with a worker named twice or ranks in place of workers activities are placed without the workers they need; a worker without any needed skill is blocked without being noted, which delays another activity."
  },
  {
   "property": "C94",
   "status": "partial",
   "theorems": [
    "Verif.MultiSkill.C94_accepts_iff",
    "Verif.MultiSkill.C94_accepts_generated",
    "Verif.MultiSkill.C94_durations_refuted",
    "Verif.MultiSkill.C94_after_sink_refuted",
    "Verif.MultiSkill.C94_raises_refuted",
    "Verif.MultiSkill.C94_instant_rejected"
   ],
   "note": "Exact characterisation of acceptance for solutions with all activities and their modes; generated schedules are accepted when capacities are constant, modes exist and lists name every worker. Negations: durations, the limit of one worker and resources after the end of the sink are not checked; missing workers and corrected modes make the check raise KeyError; activities without duration get busy workers and are then rejected."
  },
  {
   "property": "C95",
   "status": "partial",
   "theorems": [
    "Verif.MultiSkill.C95_same",
    "Verif.MultiSkill.C95_never_later",
    "Verif.MultiSkill.C95_precedence",
    "Verif.MultiSkill.C95_workers",
    "Verif.MultiSkill.C95_earliest",
    "Verif.MultiSkill.C95_never_raises",
    "Verif.MultiSkill.C95_accepted",
    "Verif.MultiSkill.C95_resources_refuted",
    "Verif.MultiSkill.C95_instant_refuted"
   ],
   "note": "All parts for every valid schedule, except that the check still accepts only in problems without resources where activities with workers take time and workers are noted with the skills they give. Negations: resources are not looked at, so a shifted schedule can use more machines than there are; an activity without duration is moved to a time at which its worker is busy."
  },
  {
   "property": "C96",
   "status": "partial",
   "theorems": [
    "Verif.Rcpsp.C96_never_later",
    "Verif.Rcpsp.C96_fixed_point",
    "Verif.Rcpsp.C96_unframed_refuted"
   ],
   "note": "Both parts for well-formed projects without negative requirements, when nothing starts before the source or after the sink (and, for the second part, non-renewable capacities are constant; without any resource, nothing ends after the horizon). Negation: without the frame the sink, which is always placed last, can become later."
  },
  {
   "property": "C97",
   "status": "partial",
   "theorems": [
    "Verif.MultiSkill.C97_encoding",
    "Verif.MultiSkill.C97_accepted",
    "Verif.MultiSkill.C97_dummy",
    "Verif.MultiSkill.C97_ranks",
    "Verif.MultiSkill.C97_ranks_full",
    "Verif.MultiSkill.C97_short_raises",
    "Verif.MultiSkill.C97_fixed",
    "Verif.MultiSkill.C97_evaluate",
    "Verif.MultiSkill.C97_makespan",
    "Verif.MultiSkill.C97_from0",
    "Verif.MultiSkill.C97_unhandled_refuted",
    "Verif.MultiSkill.C97_unfixed_raises",
    "Verif.MultiSkill.C97_copy",
    "Verif.MultiSkill.C97_longer_refuted",
    "Verif.MultiSkill.C97_lost_refuted",
    "Verif.MultiSkill.C97_strangers_refuted",
    "Verif.MultiSkill.C97_from0_refuted",
    "Verif.MultiSkill.C97_limit_lost_refuted"
   ],
   "note": "Encodings of complete solutions, regeneration without exception and its acceptance (under the conditions of C94), evaluation of orders and modes, fixed attributes, ranks as workers when these are numbered 1 to n, copies without the limit of one worker. Negations: the new schedule can be longer, or incomplete when the old one ends at the horizon; with other worker numbers nobody is assigned; five registered encodings raise UnboundLocalError; fixing modes counted from 0 fixes the next modes; copies and variants lose the limit of one worker per activity."
  },
  {
   "property": "C98",
   "status": "partial",
   "theorems": [
    "Verif.MultiSkill.C98_rows",
    "Verif.MultiSkill.C98_project",
    "Verif.MultiSkill.C98_skill_load",
    "Verif.MultiSkill.C98_relaxation",
    "Verif.MultiSkill.C98_converse_refuted",
    "Verif.MultiSkill.C98_last_refuted",
    "Verif.MultiSkill.C98_raises_refuted",
    "Verif.MultiSkill.C98_first_refuted"
   ],
   "note": "Rows at all times (at the last one if no calendar is longer than the row), kept modes, durations, resources and precedences, and acceptance of accepted solutions. Negations: calendars longer than the row add all remaining days to its last position, and overloads are accepted there; the converse fails, one worker with two skills counts twice; a skill unknown to the project raises KeyError and empty rows IndexError; with rows of different lengths the result depends on which resource comes first in a set."
  },
  {
   "property": "C99",
   "status": "partial",
   "theorems": [
    "Verif.Defaults.C99_sound_partial",
    "Verif.Defaults.C99_complete_partial",
    "Verif.Defaults.C99_deterministic",
    "Verif.Defaults.C99_sample_is_step_partial",
    "Verif.Defaults.C99_history_refuted",
    "Verif.Defaults.C99_from_memory_partial",
    "Verif.Defaults.C99_from_memory_refuted"
   ],
   "note": "Proved for Markovian, memoryless and bounded histories of order other than 1 (soundness, completeness, sampling), and for deterministic fully observable Markovian domains with the exact run. Negations: with unbounded history every step raises; with bounded histories steps change the memory object of the caller, so later episodes of a rollout start elsewhere."
  },
  {
   "property": "C100",
   "status": "partial",
   "theorems": [
    "Verif.Defaults.C100_single",
    "Verif.Defaults.C100_joint_partial",
    "Verif.Defaults.C100_left_out_refuted",
    "Verif.Defaults.C100_stranger_raises",
    "Verif.Defaults.C100_unrestricted",
    "Verif.Defaults.C100_events_refuted",
    "Verif.Defaults.C100_before_reset",
    "Verif.Defaults.C100_random_walk"
   ],
   "note": "Proved for one agent, for joint actions that name exactly the agents, and for the random walker. Negations: agents left out are not missed (nothing at all is accepted), strangers raise KeyError, is_action always raises with several agents, and is_enabled_event always raises in domains with actions only, because the empty space has no contains."
  },
  {
   "property": "C101",
   "status": "partial",
   "theorems": [
    "Verif.Defaults.C101_constant",
    "Verif.Defaults.C101_stable_partial",
    "Verif.Defaults.C101_evicted_refuted"
   ],
   "note": "Constant methods are always answered rightly; other methods give the first answer as long as fewer than 128 other domains ask in between. Negation: after 128 other domains the method is asked anew, so a drawn initial state changes."
  },
  {
   "property": "C102",
   "status": "partial",
   "theorems": [
    "Verif.Sched.C102_replay_partial",
    "Verif.Sched.C102_zero_duration_refuted",
    "Verif.Sched.C102_order_refuted"
   ],
   "note": "Proved with renewable and other resources, several modes and plans that are not eager, for constant needs without skills, units and conditional tasks, durations below 10000 (longer tasks complete early, see C14), and tasks of duration zero that need nothing. Negations: a task of duration zero with needs keeps its resources and the plan is not replayed; the methods that follow the order of a plan can end later than the plan although everything is as planned."
  },
  {
   "property": "C103",
   "status": "partial",
   "theorems": [
    "Verif.Sched.C103_test_iff_partial",
    "Verif.Sched.C103_impossible_stays",
    "Verif.Sched.C103_consumed",
    "Verif.Sched.C103_joint_refuted",
    "Verif.Sched.C103_raises_refuted"
   ],
   "note": "Proved for proposed runs without preemption with constant needs; loss of the goal when the amounts do not grow. Negations: two tasks that together need too much pass the test though the goal is out of reach; varying needs raise AttributeError; a task without modes raises NameError or passes with the answer of the task before."
  },
  {
   "property": "C104",
   "status": "partial",
   "theorems": [
    "Verif.Sched.C104_list_methods_finish_partial",
    "Verif.Sched.C104_gantt_refuted",
    "Verif.Sched.C104_negative_freedom_refuted",
    "Verif.Sched.C104_incomplete_refuted"
   ],
   "note": "Proved when every task alone fits the capacities in the chosen mode and tasks of duration zero need nothing, for non-negative freedoms. Negations: the Gantt method never finishes once a task is late; negative freedoms never start anything; tasks left out of the permutation are never started."
  },
  {
   "property": "C105",
   "status": "partial",
   "theorems": [
    "Verif.Binding.C105_same_modes",
    "Verif.Binding.C105_domain_to_problem",
    "Verif.Binding.C105_problem_to_domain",
    "Verif.Binding.C105_round_trip",
    "Verif.Binding.C105_multiplier_refuted",
    "Verif.Binding.C105_calendar_refuted",
    "Verif.Binding.C105_omitted_need_refuted"
   ],
   "note": "Both directions and the round trip for projects without skills whose tasks are numbered 1 to n and whose modes list every resource, for schedules whose last task ends last (the check does not look further). Negations: the horizon multiplier is lost on the way to the domain; a calendar becomes its maximum; a need that a mode does not mention is zero in the domain and a KeyError in the problem."
  },
  {
   "property": "C106",
   "status": "partial",
   "theorems": [
    "Verif.Binding.C106_solved_and_run_partial",
    "Verif.Binding.C106_numbering_refuted"
   ],
   "note": "Proved for projects without skills whose tasks are numbered 1 to n, with tasks of no duration that need nothing and durations below 10000 (see C102); without any resource the schedule has to end before the horizon. Negation: with tasks numbered from 0 both sides are built without complaint and the domain can be run, but schedule generation raises KeyError."
  },
  {
   "property": "C107",
   "status": "partial",
   "theorems": [
    "Verif.Binding.C107_noise_values",
    "Verif.Binding.C107_noise_mean",
    "Verif.Binding.C107_stochastic",
    "Verif.Binding.C107_drawn",
    "Verif.Binding.C107_every",
    "Verif.Binding.C107_count",
    "Verif.Binding.C107_plans",
    "Verif.Binding.C107_renewable_refuted"
   ],
   "note": "Values, probabilities and mean of the noise (the mean is the given duration exactly above 10, and longer below), the stochastic project, each project drawn, every combination possible, and feasible plans carried over (both ways when all resources are renewable). Negation: resources that are not renewable become renewable in the stochastic project and in everything drawn from it, so a schedule that the given project refuses is accepted."
  },
  {
   "property": "C108",
   "status": "partial",
   "theorems": [
    "Verif.ColoringLp.C108_built_partial",
    "Verif.ColoringLp.C108_names_refuted",
    "Verif.ColoringLp.C108_sound",
    "Verif.ColoringLp.C108_complete",
    "Verif.ColoringLp.C108_optimal"
   ],
   "note": "Soundness, completeness and optimality for graphs numbered from 0 on; the library is the meaning of the program (exact integers, any feasible or best assignment). Negation: rows are built for the positions 0..n-1 while the variables are named after the nodes, so for every graph not numbered from 0 on building the program raises KeyError."
  },
  {
   "property": "C109",
   "status": "partial",
   "theorems": [
    "Verif.FacilityLp.C109_sound",
    "Verif.FacilityLp.C109_complete",
    "Verif.FacilityLp.C109_optimal_partial",
    "Verif.FacilityLp.C109_unpruned",
    "Verif.FacilityLp.C109_pruned_refuted"
   ],
   "note": "Soundness and completeness for every pruning; optimality among the assignments the pruning allows (setup costs and capacities not negative), over all assignments when nothing is pruned. Negation: the pruning (n cheapest facilities, and for each customer the n closest) can leave a program with no feasible assignment although the problem has one."
  },
  {
   "property": "C110",
   "status": "partial",
   "theorems": [
    "Verif.KnapsackLp.C110_packings_partial",
    "Verif.KnapsackLp.C110_optimal_partial",
    "Verif.KnapsackLp.C110_lns_partial",
    "Verif.KnapsackLp.C110_order_refuted"
   ],
   "note": "Proved for items listed by increasing index (the neighbourhood search: numbered by position). Negation: list_taken is in the order of the indices while the problem reads it by position, so for other lists the result of the best assignment can break the capacity and misreport its value."
  },
  {
   "property": "C111",
   "status": "partial",
   "theorems": [
    "Verif.RcpspLp.C111_built_partial",
    "Verif.RcpspLp.C111_partial_refuted",
    "Verif.RcpspLp.C111_attribute",
    "Verif.RcpspLp.C111_sound_partial",
    "Verif.RcpspLp.C111_complete_partial",
    "Verif.RcpspLp.C111_optimal_partial",
    "Verif.RcpspLp.C111_nonrenewable_refuted"
   ],
   "note": "Soundness, completeness and optimality for constant capacities of renewable resources. Negations: non-renewable resources are treated as renewable, so the schedule read can be rejected by the check of the problem; with any partial solution building the program raises (AttributeError for start_at_end, which no partial solution has)."
  },
  {
   "property": "C112",
   "status": "partial",
   "theorems": [
    "Verif.RcpspLp.C112_built",
    "Verif.RcpspLp.C112_sound",
    "Verif.RcpspLp.C112_complete",
    "Verif.RcpspLp.C112_start_fits",
    "Verif.RcpspLp.C112_optimal_partial",
    "Verif.RcpspLp.C112_kept",
    "Verif.RcpspLp.C112_accepted",
    "Verif.RcpspLp.C112_horizon_refuted",
    "Verif.RcpspLp.C112_modes_refuted"
   ],
   "note": "Building, soundness, completeness and the kept start times and orders for every project; optimality over all plans when every task precedes the last one. Negations: with an infeasible start solution the times end before the sum of the longest durations, where the last task of a sequential project has to start, so the program of a project with a plan has no feasible assignment; modes and end times of a partial solution are not read."
  },
  {
   "property": "C113",
   "status": "partial",
   "theorems": [
    "Verif.TspLp.C113_graphs",
    "Verif.TspLp.C113_complete_partial",
    "Verif.TspLp.C113_built",
    "Verif.TspLp.C113_no_inner",
    "Verif.TspLp.C113_tours_partial",
    "Verif.TspLp.C113_single_component",
    "Verif.TspLp.C113_cut",
    "Verif.TspLp.C113_solve",
    "Verif.TspLp.C113_optimal_partial",
    "Verif.TspLp.C113_finishes_partial",
    "Verif.TspLp.C113_pruned",
    "Verif.TspLp.C113_two_nodes_refuted",
    "Verif.TspLp.C113_no_tour_refuted",
    "Verif.TspLp.C113_ties_refuted"
   ],
   "note": "All parts for symmetric distances; that tours stay feasible, the optimum and the end of the loop need different start and end or two inner nodes. Negations: out and back between two nodes is a tour but the program has no solution; on a graph of the user without a tour the solver raises a TypeError while joining; when points coincide the complete graph can lack an edge. Without inner nodes init_model raises IndexError."
  },
  {
   "property": "C114",
   "status": "partial",
   "theorems": [
    "Verif.Explore.C114_defaults_raise",
    "Verif.Explore.C114_safe",
    "Verif.Explore.C114_sound",
    "Verif.Explore.C114_complete",
    "Verif.Explore.C114_finite",
    "Verif.Explore.C114_no_goal",
    "Verif.Explore.C114_full_one_level",
    "Verif.Explore.C114_graph_partial",
    "Verif.Explore.C114_graph_lost",
    "Verif.Explore.C114_merge",
    "Verif.Explore.C114_merge_own",
    "Verif.Explore.C114_full_refuted",
    "Verif.Explore.C114_limits_refuted",
    "Verif.Explore.C114_goals_refuted"
   ],
   "note": "The depth-first explorer and merging as stated. Negations: with the default limits exploring always raises TypeError; without a reachable goal the limits on nodes and edges do nothing and counting up never ends; the explorer of the full space only expands the start; the domain made of a graph has no goals and asking for a cost raises KeyError because the weight has no name."
  },
  {
   "property": "C115",
   "status": "partial",
   "theorems": [
    "Verif.Explore.C115_defaults",
    "Verif.Explore.C115_safe",
    "Verif.Explore.C115_sound",
    "Verif.Explore.C115_complete",
    "Verif.Explore.C115_terminal",
    "Verif.Explore.C115_finite",
    "Verif.Explore.C115_tree",
    "Verif.Explore.C115_back_lost",
    "Verif.Explore.C115_reachable",
    "Verif.Explore.C115_reachable_finite",
    "Verif.Explore.C115_transitions_refuted",
    "Verif.Explore.C115_goals_differ"
   ],
   "note": "As stated. Negation: what is recorded is a tree, each state led to by exactly one transition; transitions back to the same state, to the start or to any known state are lost, so probabilities do not add up to one, an action may have no outcome left and drawing one raises IndexError. With the default limits exploring raises TypeError unless the start is a goal or terminal."
  },
  {
   "property": "C116",
   "status": "partial",
   "theorems": [
    "Verif.Lns.C116_answer",
    "Verif.Lns.C116_nothing",
    "Verif.Lns.C116_constraints",
    "Verif.Lns.C116_identity",
    "Verif.Lns.C116_descent",
    "Verif.Lns.C116_default",
    "Verif.Lns.C116_equal_stops",
    "Verif.Lns.C116_worse_uncounted",
    "Verif.Lns.C116_skip_max",
    "Verif.Lns.C116_skip_refuted"
   ],
   "note": "As stated. Negations: iterations that are worse than the best are not counted, so no patience ends such a search; when maximising with the first iteration skipped nothing is ever counted (the infinite start value has the wrong sign); skipping the first iteration raises KeyError with handlers that read their own key. The solver is any function of the iteration and of the constraints present."
  },
  {
   "property": "C117",
   "status": "partial",
   "theorems": [
    "Verif.Lns.C117_answer",
    "Verif.Lns.C117_constraints",
    "Verif.Lns.C117_descent",
    "Verif.Lns.C117_default",
    "Verif.Lns.C117_patience_partial",
    "Verif.Lns.C117_skip_refuted",
    "Verif.Lns.C117_satisfy_refuted"
   ],
   "note": "As stated; the part on patience for checks problem.satisfy that do not raise. Negations: a check that raises makes improving iterations count as failed ones; a skipped first iteration without a result raises AttributeError in the next one."
  },
  {
   "property": "C118",
   "status": "partial",
   "theorems": [
    "Verif.LpLns.C118_facility_exact",
    "Verif.LpLns.C118_facility_best",
    "Verif.LpLns.C118_facility_pruned_refuted",
    "Verif.LpLns.C118_facility_first",
    "Verif.LpLns.C118_facility_short",
    "Verif.LpLns.C118_color_exact",
    "Verif.LpLns.C118_color_best",
    "Verif.LpLns.C118_color_high_refuted",
    "Verif.LpLns.C118_color_empty"
   ],
   "note": "As stated. Negations: a customer drawn whose pair is pruned, or a node drawn whose colour is not the highest and not below the number of colours of the program (its greedy start), makes the restricted program infeasible although problem and incumbent are fine. Error branches: too short incumbents, no colours. The MIP start is left out."
  },
  {
   "property": "C119",
   "status": "partial",
   "theorems": [
    "Verif.LpLns.C119_multi_exact",
    "Verif.LpLns.C119_multi_best",
    "Verif.LpLns.C119_incumbent",
    "Verif.LpLns.C119_single_exact",
    "Verif.LpLns.C119_single_best",
    "Verif.LpLns.C119_single_horizon_refuted",
    "Verif.LpLns.C119_fix_exact",
    "Verif.LpLns.C119_fix_incumbent",
    "Verif.LpLns.C119_fix_last_refuted",
    "Verif.LpLns.C119_fix_horizon_refuted",
    "Verif.LpLns.C119_no_schedule"
   ],
   "note": "As stated; with one mode for constant capacities and renewable resources (see C111). Negations: when the last task is drawn by the fixed-start handler every answer has the makespan of the incumbent, so nothing can improve; when the incumbent is longer than the greedy start of the solver, whose makespan ends the times of the program, a task drawn beyond them makes the restricted program infeasible. An incumbent without a schedule raises KeyError or ValueError."
  },
  {
   "property": "C120",
   "status": "partial",
   "theorems": [
    "Verif.Riw.C120_graph",
    "Verif.Riw.C120_action",
    "Verif.Riw.C120_depth",
    "Verif.Riw.C120_depth_wraps"
   ],
   "note": "As stated. Negation: an answer lowers the depth of the state it was asked for from zero to the largest size_t. Sequential policy, no garbage collection of nodes (the default)."
  },
  {
   "property": "C121",
   "status": "partial",
   "theorems": [
    "Verif.Riw.C121_novel",
    "Verif.Riw.C121_table",
    "Verif.Riw.C121_number",
    "Verif.Riw.C121_lower_depth_pruned",
    "Verif.Riw.C121_budget",
    "Verif.Riw.C121_no_solution",
    "Verif.Riw.C121_true_despite_pruning",
    "Verif.Riw.C121_dead_end",
    "Verif.Riw.C121_circle_hangs",
    "Verif.Riw.C121_value_reset"
   ],
   "note": "As stated, for clocks that do not go back. Negations: known states reached with lower depth are pruned though the comment says otherwise; a width returns true though states were pruned and budgets are left, and a better plan is lost; a state without actions that is not terminal throws; on a circle the first rollout never ends, whatever max_depth; a second edge to a solved state sets its value to zero, so that the value of the start is wrong."
  },
  {
   "property": "C122",
   "status": "partial",
   "theorems": [
    "Verif.Riw.C122_returns",
    "Verif.Riw.C122_long_paths_throw"
   ],
   "note": "As stated. Negation: with paths longer than max_depth the backup stops before the start, and the next rollout throws."
  },
  {
   "property": "C123",
   "status": "partial",
   "theorems": [
    "Verif.Riw.C123_optimal",
    "Verif.Riw.C123_told_apart",
    "Verif.Riw.C123_cut_refuted"
   ],
   "note": "As stated. Negations: with max_depth below the height of the tree, or with a rollout budget that is consumed, the answer is the worse action. That pruning and second edges to a state (no tree) lose the optimum is C121."
  },
  {
   "property": "C124",
   "status": "partial",
   "theorems": [
    "Verif.PolicyEval.C124_exact",
    "Verif.PolicyEval.C124_assert",
    "Verif.PolicyEval.C124_ends",
    "Verif.PolicyEval.C124_zero_refuted"
   ],
   "note": "As stated, with is_terminal, the policy and the distributions as functions of the state. Negation: a listed outcome of probability zero makes the evaluation of a good policy raise AssertionError."
  },
  {
   "property": "C125",
   "status": "partial",
   "theorems": [
    "Verif.PolicyEval.C125_correct",
    "Verif.PolicyEval.C125_complete",
    "Verif.PolicyEval.C125_returns",
    "Verif.PolicyEval.C125_loop_refuted",
    "Verif.PolicyEval.C125_start_refuted"
   ],
   "note": "As stated. Negations: with a loop of the policy the start has no value though the goal is reached with probability 1 and the expected cost is 2; an initial state that is a goal has no value if it is terminal, and the value 7 if it is not."
  },
  {
   "property": "C126",
   "status": "partial",
   "theorems": [
    "Verif.PolicyEval.C126_average",
    "Verif.PolicyEval.C126_deterministic",
    "Verif.PolicyEval.C126_penalty_refuted",
    "Verif.PolicyEval.C126_fast"
   ],
   "note": "As stated. Negation: the penalty of 1000 for rollouts that end elsewhere than in a goal is not used by the estimation, so a policy that never reaches the goal gets the better value."
  },
  {
   "property": "C127",
   "status": "partial",
   "theorems": [
    "Verif.PolicyEval.C127_agree",
    "Verif.PolicyEval.C127_best",
    "Verif.PolicyEval.C127_errors",
    "Verif.PolicyEval.C127_zero_refuted"
   ],
   "note": "As stated, with the results of rollout_episode as oracle and episodes that begin with the action of their policy. Negation: nb_rollout_estimation = 0 gives KeyError when policies disagree."
  },
  {
   "property": "C128",
   "status": "partial",
   "theorems": [
    "Verif.Ttp.C128_sums",
    "Verif.Ttp.C128_once",
    "Verif.Ttp.C128_bounds",
    "Verif.Ttp.C128_errors",
    "Verif.Ttp.C128_overload_refuted",
    "Verif.Ttp.C128_twice_refuted"
   ],
   "note": "As stated, with exact numbers and distances as a function of the cities. Negations: beyond the capacity (which nothing checks; satisfy is always true) the speed becomes negative and the objective exceeds the profit, or the evaluation divides by zero; an item is taken in a city where it is not; a city left twice gives its items twice."
  },
  {
   "property": "C129",
   "status": "partial",
   "theorems": [
    "Verif.Ttp.C129_flip",
    "Verif.Ttp.C129_capacity",
    "Verif.Ttp.C129_capacity_refuted",
    "Verif.Ttp.C129_recursion",
    "Verif.Ttp.C129_best_refuted",
    "Verif.Ttp.C129_candidates",
    "Verif.Ttp.C129_two_opt_refuted"
   ],
   "note": "As stated. Negations: answers note weight 0, so that two mutations in a row exceed the capacity; with nothing taken and nothing that fits the two switches recur until the recursion limit; MutationTTPKnapsackBest and Mutation2Opt compare or subtract dictionaries and numbers and so raise TypeError whenever there is something to try, the former leaving the given packing changed; the default nb_test = 1000 raises ValueError up to 1000 cities."
  },
  {
   "property": "C130",
   "status": "partial",
   "theorems": [
    "Verif.Pomcp.C130_visits",
    "Verif.Pomcp.C130_mean",
    "Verif.Pomcp.C130_update",
    "Verif.Pomcp.C130_iterations",
    "Verif.Pomcp.C130_answer",
    "Verif.Pomcp.C130_no_goal",
    "Verif.Pomcp.C130_untried",
    "Verif.Pomcp.C130_untried_refuted"
   ],
   "note": "As stated; numbers are exact, the square root of the UCT formula is a parameter. Negations: with positive costs an action that was never tried counts as free and is preferred to all that were tried, so that with few iterations the answer ignores an action known to reach the goal; if no goal is observed the answers are untried actions or None."
  },
  {
   "property": "C131",
   "status": "partial",
   "theorems": [
    "Verif.Pomcp.C131_total",
    "Verif.Pomcp.C131_large_costs_refuted",
    "Verif.Pomcp.C131_depth_zero_refuted",
    "Verif.Pomcp.C131_belief",
    "Verif.Pomcp.C131_belief_errors",
    "Verif.Pomcp.C131_order_refuted"
   ],
   "note": "As stated, for random.choices of Python 3.9 and later. Negations: a goal that costs more than twice the depth bound makes the search raise AssertionError or answer None; with depth bound 0 any two iterations raise; the belief is compared with the observation before the last action is applied, against the documented meaning of observations, so that a domain showing its state raises ValueError at the second observation."
  },
  {
   "property": "C132",
   "status": "partial",
   "theorems": [
    "Verif.Gym.C132_bee1_total",
    "Verif.Gym.C132_bee2_total",
    "Verif.Gym.C132_bee1_first",
    "Verif.Gym.C132_bee2_first",
    "Verif.Gym.C132_bee1_node",
    "Verif.Gym.C132_bee2_node",
    "Verif.Gym.C132_repeat_refuted",
    "Verif.Gym.C132_spaces",
    "Verif.Gym.C132_spaces_refuted"
   ],
   "note": "As stated, with exact numbers. Negations: the finer features depend on the history (the same state evaluated twice gets different features); spaces with a Discrete, MultiDiscrete or MultiBinary part, or a dictionary with keys, raise RuntimeError or ValueError at the first call, although the later code handles them."
  },
  {
   "property": "C133",
   "status": "partial",
   "theorems": [
    "Verif.Gym.C133_length",
    "Verif.Gym.C133_injective",
    "Verif.Gym.C133_discrete",
    "Verif.Gym.C133_negative_zero_refuted",
    "Verif.Gym.C133_dict_refuted"
   ],
   "note": "Holds without dictionaries, without boxes that have no cells and without the cell value -0.0. Negations: -0.0 takes 33 bits, which shifts all later features; a dictionary with keys always raises. nb_of_binary_features passes four arguments to a method of two and always raises TypeError (read off the source, not modelled)."
  },
  {
   "property": "C134",
   "status": "partial",
   "theorems": [
    "Verif.Gym.C134_equal",
    "Verif.Gym.C134_structure_refuted"
   ],
   "note": "As stated. Negation: states of different structure or with different keys may have equal proxies."
  },
  {
   "property": "C135",
   "status": "partial",
   "theorems": [
    "Verif.Gym.C135_discrete",
    "Verif.Gym.C135_multiDiscrete",
    "Verif.Gym.C135_tuple",
    "Verif.Gym.C135_box",
    "Verif.Gym.C135_box_refuted",
    "Verif.Gym.C135_unsupported_refuted",
    "Verif.Gym.C135_factor_one_refuted"
   ],
   "note": "As stated. Negations: for a box of one dimension with several cells only the first item of each action is written, the others are uninitialised; boxes of other dimensions and MultiBinary raise TypeError; Dict gives None, AttributeError within a tuple; empty vectors and tuples raise IndexError; with factor 1 the only action is NaN."
  },
  {
   "property": "C136",
   "status": "partial",
   "theorems": [
    "Verif.GymEnv.C136_path",
    "Verif.GymEnv.C136_next",
    "Verif.GymEnv.C136_copies",
    "Verif.GymEnv.C136_value_refuted"
   ],
   "note": "As stated. Negation: the transition value is that of the last transition stored in the next state, whatever memory and action are given; without next state, or with the initial one, it raises AttributeError."
  },
  {
   "property": "C137",
   "status": "partial",
   "theorems": [
    "Verif.GymEnv.C137_depth",
    "Verif.GymEnv.C137_goal",
    "Verif.GymEnv.C137_same",
    "Verif.GymEnv.C137_multi_discrete_refuted",
    "Verif.GymEnv.C137_accumulated_refuted"
   ],
   "note": "Depth and goals as stated. Negations: the accumulated reward leaves out the last transition; with a MultiDiscrete observation space every call for a successor raises RuntimeError."
  },
  {
   "property": "C138",
   "status": "partial",
   "theorems": [
    "Verif.GymEnv.C138_reset",
    "Verif.GymEnv.C138_first",
    "Verif.GymEnv.C138_set_memory_refuted"
   ],
   "note": "Resets as stated. Negation: after set_memory with a state returned by a step, the environment is in the initial state, with copies and with set_state."
  },
  {
   "property": "C139",
   "status": "partial",
   "theorems": [
    "Verif.GymEnv.C139_round_trip",
    "Verif.GymEnv.C139_step",
    "Verif.GymEnv.C139_bad_action",
    "Verif.GymEnv.C139_flag_refuted",
    "Verif.GymEnv.C139_reset_refuted"
   ],
   "note": "Steps with unwrapped spaces as stated. Negations: reset does not unwrap the observation; with unwrap_spaces=False step still converts the action."
  },
  {
   "property": "C140",
   "status": "partial",
   "theorems": [
    "Verif.Cgp.C140_total",
    "Verif.Cgp.C140_used",
    "Verif.Cgp.C140_settles",
    "Verif.Cgp.C140_program",
    "Verif.Cgp.C140_shallow",
    "Verif.Cgp.C140_first_run_refuted",
    "Verif.Cgp.C140_backward_refuted",
    "Verif.Cgp.C140_outside_refuted"
   ],
   "note": "As stated. Negations: the first run of a deeper program shows other values and depends on earlier inputs; with backward connections needed nodes are never evaluated; connections outside raise IndexError."
  },
  {
   "property": "C141",
   "status": "partial",
   "theorems": [
    "Verif.Cgp.C141_random",
    "Verif.Cgp.C141_random_onto",
    "Verif.Cgp.C141_no_inputs_refuted",
    "Verif.Cgp.C141_mutate_partial",
    "Verif.Cgp.C141_per_gene_partial",
    "Verif.Cgp.C141_per_gene_range",
    "Verif.Cgp.C141_rows_raise_refuted",
    "Verif.Cgp.C141_rows_refuted",
    "Verif.Cgp.C141_cached_refuted",
    "Verif.Cgp.C141_clone_refuted"
   ],
   "note": "random as stated (ValueError without inputs); mutations with one row. Negations: with several rows mutate leaves the graph or raises ValueError, mutate_per_gene makes nodes their own arguments or raises; programs that have run ignore changes of their genome; clones forget the recurrency distance."
  },
  {
   "property": "C142",
   "status": "partial",
   "theorems": [
    "Verif.Cgp.C142_best",
    "Verif.Cgp.C142_witness",
    "Verif.Cgp.C142_generation",
    "Verif.Cgp.C142_no_offsprings_refuted",
    "Verif.Cgp.C142_total_partial",
    "Verif.Cgp.C142_rows_refuted",
    "Verif.Cgp.C142_weighted",
    "Verif.Cgp.C142_order_refuted"
   ],
   "note": "As stated. Negations: no offsprings raise ValueError; with several rows the evolution can raise; the rewards are not sorted before they are weighted; no episode raises ZeroDivisionError."
  },
  {
   "property": "C143",
   "status": "partial",
   "theorems": [
    "Verif.Cgp.C143_interval",
    "Verif.Cgp.C143_choice",
    "Verif.Cgp.C143_action",
    "Verif.Cgp.C143_solver_action",
    "Verif.Cgp.C143_inverse",
    "Verif.Cgp.C143_one_choice_refuted",
    "Verif.Cgp.C143_half_line_refuted",
    "Verif.Cgp.C143_unbounded_refuted",
    "Verif.Cgp.C143_tuple_refuted",
    "Verif.Cgp.C143_check_refuted",
    "Verif.Cgp.C143_check_partial"
   ],
   "note": "Bounded boxes and at least two choices as stated. Negations: one choice raises ZeroDivisionError; unbounded cells lose observations and make infinite actions; tuples with boxes of several cells have too few outputs; the check of the domain looks at the last part only."
  },
  {
   "property": "C144",
   "status": "proved",
   "theorems": [
    "Verif.CpmSgs.C144_schedules_respect_precedences_and_capacities",
    "Verif.CpmSgs.C144_no_activity_can_start_earlier",
    "Verif.CpmSgs.C144_links_join_delayed_activities_to_users"
   ],
   "note": "As stated, for constant availability and calendars, cut by the critical path or not."
  },
  {
   "property": "C145",
   "status": "partial",
   "theorems": [
    "Verif.CpmSgs.C145_all_activities_are_placed",
    "Verif.CpmSgs.C145_critical_activities_and_ancestors_are_placed",
    "Verif.CpmSgs.C145_all_activities_are_placed_refuted"
   ],
   "note": "As stated. Negations: an activity that needs more than there is raises StopIteration or KeyError; an activity whose earliest date is beyond the horizon is left out silently; a short horizon raises IndexError."
  },
  {
   "property": "C146",
   "status": "partial",
   "theorems": [
    "Verif.CpmSgs.C146_time_loop_schedules_are_feasible",
    "Verif.CpmSgs.C146_one_activity_starts_at_a_time",
    "Verif.CpmSgs.C146_time_loop_returns",
    "Verif.CpmSgs.C146_activities_start_as_early_as_possible_refuted",
    "Verif.CpmSgs.C146_calendars_are_respected_refuted",
    "Verif.CpmSgs.C146_the_loop_ends_refuted"
   ],
   "note": "As stated. Negations: activities that fit together start one after the other; calendars that drop later are overdrawn (only the first time is checked); with ten waiting activities first in the order the loop never ends."
  },
  {
   "property": "C147",
   "status": "partial",
   "theorems": [
    "Verif.Sched.C147_descendants",
    "Verif.Sched.C147_answer",
    "Verif.Sched.C147_most_successors",
    "Verif.Sched.C147_fastest",
    "Verif.Sched.C147_sample",
    "Verif.Sched.C147_sampled",
    "Verif.Sched.C147_total",
    "Verif.Sched.C147_mode_names_refuted"
   ],
   "note": "As stated, and it answers in every reachable state when all tasks have a mode 1. Negation: a ready task without a mode named 1 raises KeyError though the domain offers its start."
  },
  {
   "property": "C148",
   "status": "partial",
   "theorems": [
    "Verif.Sched.C148_finishes_partial",
    "Verif.Sched.C148_other_modes_refuted"
   ],
   "note": "As stated for tasks that fit in mode 1; tasks that draw duration zero must need nothing. Negation: a task that fits only in another mode is never started."
  },
  {
   "property": "C149",
   "status": "partial",
   "theorems": [
    "Verif.SimpleGreedy.C149_greedy_partial",
    "Verif.SimpleGreedy.C149_total_partial",
    "Verif.SimpleGreedy.C149_independent_refuted"
   ],
   "note": "As stated when rewards depend on the next state; ValueError exactly when no action is applicable. Negation: when the domain declares that rewards do not depend on the next state, every call raises TypeError, since the code iterates over the space instead of its elements."
  },
  {
   "property": "C150",
   "status": "proved",
   "theorems": [
    "Verif.Gphh.C150_rank",
    "Verif.Gphh.C150_order_only",
    "Verif.Gphh.C150_inner",
    "Verif.Gphh.C150_negated",
    "Verif.Gphh.C150_extremes",
    "Verif.Gphh.C150_division"
   ],
   "note": "As stated; the ranking is the only list with these properties. Also: negating a heuristic without ties turns its ranking round."
  },
  {
   "property": "C151",
   "status": "partial",
   "theorems": [
    "Verif.Gphh.C151_median",
    "Verif.Gphh.C151_trim",
    "Verif.Gphh.C151_bounds",
    "Verif.Gphh.C151_single",
    "Verif.Gphh.C151_random_refuted",
    "Verif.Gphh.C151_extremes_refuted"
   ],
   "note": "As stated when fewer values are removed than there are heuristics. Negations: the random pool always raises TypeError (randint with one argument); removing all values gives not a number, removing more raises IndexError."
  },
  {
   "property": "C152",
   "status": "partial",
   "theorems": [
    "Verif.Gphh.C152_mean_share",
    "Verif.Gphh.C152_shares",
    "Verif.Gphh.C152_features",
    "Verif.Gphh.C152_zero_capacity_refuted",
    "Verif.Gphh.C152_no_resource_refuted"
   ],
   "note": "As stated. Negations: a capacity of zero at any time of the duration raises ZeroDivisionError even without need; a task that takes time without naming resources gives not a number or exceptions."
  },
  {
   "property": "C153",
   "status": "partial",
   "theorems": [
    "Verif.Gphh.C153_tau",
    "Verif.Gphh.C153_hamming",
    "Verif.Gphh.C153_penalty",
    "Verif.Gphh.C153_best",
    "Verif.Gphh.C153_order_distance_refuted"
   ],
   "note": "As stated for at least two tasks. Negation: Kendall's coefficient compares permutations as number sequences, not the places of tasks, so exchanging two neighbours can be the worst and turning the order round better."
  },
  {
   "property": "C154",
   "status": "partial",
   "theorems": [
    "Verif.Gphh.C154_answer",
    "Verif.Gphh.C154_priority_partial",
    "Verif.Gphh.C154_finishes_partial",
    "Verif.Gphh.C154_numbers_refuted"
   ],
   "note": "As stated for tasks numbered 1 to n that fit in mode 1 (priority for the method ready, finishing for the five list methods; the schedule of the serial scheme is arbitrary but complete). Negation: with tasks numbered from 0, positions are taken for numbers and task 0 never starts."
  },
  {
   "property": "C155",
   "status": "partial",
   "theorems": [
    "Verif.MsLp.C155_sound",
    "Verif.MsLp.C155_accepted_partial",
    "Verif.MsLp.C155_builds",
    "Verif.MsLp.C155_instant_refuted",
    "Verif.MsLp.C155_one_worker_refuted",
    "Verif.MsLp.C155_calendar_refuted"
   ],
   "note": "As stated, and the program can be built, when modes list all resources, the sink takes no time, modes that need skills take time, non-renewable capacities are constant and calendars are long enough. Negations: a worker may do a task without duration during another task (the check rejects this); the limit of one worker per task is ignored; a calendar as long as the horizon raises IndexError although a schedule can be generated."
  },
  {
   "property": "C156",
   "status": "partial",
   "theorems": [
    "Verif.MsLp.C156_complete_partial",
    "Verif.MsLp.C156_optimal",
    "Verif.MsLp.C156_makespan_partial",
    "Verif.MsLp.C156_two_skills_refuted"
   ],
   "note": "As stated for schedules that start in time and note each worker for one needed skill per task, with the sink numbered last. Negation: a worker with two skills that one task needs is not used for both, so the program has no solution although the check accepts a schedule."
  },
  {
   "property": "C157",
   "status": "partial",
   "theorems": [
    "Verif.Hindsight.C157_exact_partial",
    "Verif.Hindsight.C157_answers",
    "Verif.Hindsight.C157_no_scenarios",
    "Verif.Hindsight.C157_unanimous",
    "Verif.Hindsight.C157_again",
    "Verif.Hindsight.C157_bound",
    "Verif.Hindsight.C157_loop_refuted",
    "Verif.Hindsight.C157_shared_refuted"
   ],
   "note": "The call never raises with a scenario, its answer starts a plan, unanimous scenarios are followed and asking again at once changes nothing: all runs. Least weighted cost: when states carry their depth, actions lead to different states and calls go along increasing depth. Negations: an action that stays at the state, or two actions with the same next state, make a plan count twice and the answer wrong."
  },
  {
   "property": "C158",
   "status": "partial",
   "theorems": [
    "Verif.Hindsight.C158_first_partial",
    "Verif.Hindsight.C158_again_refuted",
    "Verif.Hindsight.C158_middle_refuted"
   ],
   "note": "Least weighted cost among the first actions of the plans at the first call at each state, for all domains. Negations: asking again at the same state adds the plans to the old values and changes the answer; an action that starts no plan is not considered even when it is the best of all."
  },
  {
   "property": "C159",
   "status": "partial",
   "theorems": [
    "Verif.Sched.C159_windows",
    "Verif.Sched.C159_none",
    "Verif.Sched.C159_maximum",
    "Verif.Sched.C159_minimum_refuted",
    "Verif.Sched.C159_ignored_refuted"
   ],
   "note": "The constructors and defaults for all values. Negations: a lag with only a least time cannot be made (the horizon is asked from the lag); windows are not enforced (the filter is commented out), an accepted run starts a task before its window."
  },
  {
   "property": "C160",
   "status": "partial",
   "theorems": [
    "Verif.Sched.C160_makespan",
    "Verif.Sched.C160_steps",
    "Verif.Sched.C160_cost",
    "Verif.Sched.C160_mode",
    "Verif.Sched.C160_free",
    "Verif.Sched.C160_instant_refuted",
    "Verif.Sched.C160_rejected_refuted",
    "Verif.Sched.C160_consumed_refuted"
   ],
   "note": "Makespan: all runs. Costs: the exact sum when every resource is renewable, has a price and a used amount; nothing without mode and resource costs. Negations: with a resource that is used up every transition value raises; resources are charged for actions that let no time pass; a rejected start is charged for its mode."
  },
  {
   "property": "C161",
   "status": "partial",
   "theorems": [
    "Verif.Sched.C161_outcomes",
    "Verif.Sched.C161_start",
    "Verif.Sched.C161_total_partial",
    "Verif.Sched.C161_start_and_time_refuted",
    "Verif.Sched.C161_two_tests_refuted",
    "Verif.Sched.C161_no_tests_refuted"
   ],
   "note": "Outcomes: exactly those of the simulation, whenever the distribution exists. An accepted start keeps the probabilities of the durations. Sum one: for actions that do not both start a task and let time pass, in domains where a task sets conditions by one distribution. Negations: starting and letting time pass loses the probabilities of the durations; two distributions of one task are merged to one of sum 2 without joint outcomes; an empty list of conditions raises."
  },
  {
   "property": "C162",
   "status": "partial",
   "theorems": [
    "Verif.Sched.C162_space",
    "Verif.Sched.C162_accepted",
    "Verif.Sched.C162_paused_refuted",
    "Verif.Sched.C162_start_paused_refuted"
   ],
   "note": "The enumeration is characterised exactly, and starts of tasks not started before are accepted. Negations: for paused tasks START actions are enumerated, which raise IndexError; no RESUME is ever enumerated, so a paused task stays paused in every run and the goal is not reached."
  },
  {
   "property": "C163",
   "status": "partial",
   "theorems": [
    "Verif.Sched.C163_over",
    "Verif.Sched.C163_team",
    "Verif.Sched.C163_accepted",
    "Verif.Sched.C163_no_team",
    "Verif.Sched.C163_resume",
    "Verif.Sched.C163_resume_refuted"
   ],
   "note": "Teams, acceptance, over-use and the absence of teams: all domains with skill levels not below zero, all draws. Negation: a sampled resume uses the last mode that fits, with the units of that mode, while the task keeps the mode it was started in."
  },
  {
   "property": "C164",
   "status": "partial",
   "theorems": [
    "Verif.Parse.C164_numbers",
    "Verif.Parse.C164_words",
    "Verif.Parse.C164_knapsack",
    "Verif.Parse.C164_knapsack_short",
    "Verif.Parse.C164_coloring",
    "Verif.Parse.C164_coloring_range_refuted",
    "Verif.Parse.C164_tsp",
    "Verif.Parse.C164_tsp_head_refuted",
    "Verif.Parse.C164_vrp",
    "Verif.Parse.C164_facility",
    "Verif.Parse.C164_blank_refuted"
   ],
   "note": "Round trip for all five formats and all spacings, numbers exact. Negations: blank lines are not skipped (IndexError); a second word on the first line of a travelling salesman file raises; edges may name nodes that do not exist."
  },
  {
   "property": "C165",
   "status": "partial",
   "theorems": [
    "Verif.Parse.C165_read",
    "Verif.Parse.C165_missing",
    "Verif.Parse.C165_extra_word_refuted",
    "Verif.Parse.C165_same_name_refuted",
    "Verif.Parse.C165_mode_count_refuted"
   ],
   "note": "Round trip for every instance with distinct resource names; missing sections. Negations: a mode line with one word too many is silently taken for another task; two resources of the same name shift all numbers; the announced number of modes is not checked."
  },
  {
   "property": "C166",
   "status": "partial",
   "theorems": [
    "Verif.Parse.C166_read",
    "Verif.Parse.C166_order_refuted",
    "Verif.Parse.C166_missing_refuted",
    "Verif.Parse.C166_exceptions",
    "Verif.Parse.C166_long"
   ],
   "note": "Round trip for every instance in the order of the published files; exceptions. Negations: the number of a node is ignored, so reordered lines move the items; missing words or lines give nodes at the origin without exception."
  },
  {
   "property": "C167",
   "status": "partial",
   "theorems": [
    "Verif.Ars.C167_solve",
    "Verif.Ars.C167_update",
    "Verif.Ars.C167_minimize_refuted",
    "Verif.Ars.C167_steps",
    "Verif.Ars.C167_rewards",
    "Verif.Ars.C167_best_refuted",
    "Verif.Ars.C167_setup",
    "Verif.Ars.C167_box_refuted"
   ],
   "note": "Solving, the update of the policy and the rewards of episodes for every domain. Negations: asking for small rewards does not minimise (same policy as asking for large ones when all directions are used); the last policy need not be the best seen; observations from boxes of several dimensions raise. The normalizer is made but never used by the solver, so states are not normalised by it (not a theorem: it does not occur in the model)."
  },
  {
   "property": "C168",
   "status": "proved",
   "theorems": [
    "Verif.Ars.C168_observe",
    "Verif.Ars.C168_order",
    "Verif.Ars.C168_normalize",
    "Verif.Ars.C168_errors"
   ],
   "note": "Sums in exact numbers; the square root is a parameter with its defining equation at the values used."
  },
  {
   "property": "C169",
   "status": "partial",
   "theorems": [
    "Verif.Ga.C169_name",
    "Verif.Ga.C169_unknown_refuted",
    "Verif.Ga.C169_custom_refuted",
    "Verif.Ga.C169_individual",
    "Verif.Ga.C169_individual_errors",
    "Verif.Ga.C169_mutate",
    "Verif.Ga.C169_mutation_range_refuted",
    "Verif.Ga.C169_booleans_refuted"
   ],
   "note": "Encodings by name, individuals, mutation. Negations: unknown names and incomplete dictionaries silently use the first encoding; a custom list of numbers of values raises KeyError; mutation gives values that the place does not have; it raises AttributeError for booleans and permutations. The operators of deap are described from its documentation; crossovers are not modelled."
  },
  {
   "property": "C170",
   "status": "partial",
   "theorems": [
    "Verif.Ga.C170_default_refuted",
    "Verif.Ga.C170_weights",
    "Verif.Ga.C170_aggregate",
    "Verif.Ga.C170_single_refuted",
    "Verif.Ga.C170_string_refuted",
    "Verif.Ga.C170_multi_refuted",
    "Verif.Ga.C170_best",
    "Verif.Ga.C170_evals",
    "Verif.Ga.C170_limit_refuted",
    "Verif.Ga.C170_empty",
    "Verif.Ga.C170_tournament",
    "Verif.Ga.C170_small_refuted"
   ],
   "note": "Fitness, best solution, evaluations, tournaments. Negations: the solver cannot be made without objectives (its default); weights are ignored for a single objective, so makespans are maximised; an objective given as a string is read by letters; several objectives raise NameError; the limit of evaluations is exceeded; populations of less than five raise ValueError."
  },
  {
   "property": "C171",
   "status": "partial",
   "theorems": [
    "Verif.Ga.C171_alternate_refuted",
    "Verif.Ga.C171_last",
    "Verif.Ga.C171_best_refuted",
    "Verif.Ga.C171_endless_refuted",
    "Verif.Ga.C171_errors"
   ],
   "note": "Number of runs and solution returned. Negations: there is no alternation, only the first encoding is evolved; the best run may be forgotten; runs of no evaluations never end."
  },
  {
   "property": "C172",
   "status": "partial",
   "theorems": [
    "Verif.GraphApi.C172_neighbors",
    "Verif.GraphApi.C172_symmetric",
    "Verif.GraphApi.C172_attr_edge",
    "Verif.GraphApi.C172_attr_symmetric",
    "Verif.GraphApi.C172_nodes",
    "Verif.GraphApi.C172_closed_refuted",
    "Verif.GraphApi.C172_merge_refuted",
    "Verif.GraphApi.C172_reverse_refuted",
    "Verif.GraphApi.C172_networkx",
    "Verif.GraphApi.C172_ancestors",
    "Verif.GraphApi.C172_maps",
    "Verif.GraphApi.C172_undirected_refuted"
   ],
   "note": "Neighbours, attributes, nodes, ancestors and the four maps for all graphs. Negations: an edge may name nodes that get_nodes lacks; networkx merges attributes of repeated nodes and edges where the class replaces them; given both directions of an undirected edge, the attributes of the first are lost; predecessors_map raises AttributeError for undirected graphs. check_loop is not modelled."
  },
  {
   "property": "C173",
   "status": "proved",
   "theorems": [
    "Verif.GraphApi.C173_graph",
    "Verif.GraphApi.C173_rcpsp",
    "Verif.GraphApi.C173_errors"
   ],
   "note": "Both graphs for all projects, with their exceptions."
  },
  {
   "property": "C174",
   "status": "partial",
   "theorems": [
    "Verif.Views.C174_view",
    "Verif.Views.C174_modes",
    "Verif.Views.C174_shift",
    "Verif.Views.C174_errors",
    "Verif.Views.C174_satisfy",
    "Verif.Views.C174_nice",
    "Verif.Views.C174_complete_refuted",
    "Verif.Views.C174_diff"
   ],
   "note": "Both views, their relation, exceptions, the usage of satisfy, the merged curve and differences of starting times. Negation: the time axis ends with the activity of the largest number, later consumption is cut off."
  },
  {
   "property": "C175",
   "status": "partial",
   "theorems": [
    "Verif.Views.C175_units",
    "Verif.Views.C175_fair",
    "Verif.Views.C175_axis_refuted",
    "Verif.Views.C175_short_refuted",
    "Verif.Views.C175_calendar_refuted"
   ],
   "note": "For schedules with constant capacities, activity numbers up to 100000 and an activity that starts and ends at 0. Negations: without such an activity KeyError may be raised; schedules that require too much leave activities with fewer units, silently; with calendars units work while off duty. activity_last_n_hours and the boxes for plots are not modelled."
  },
  {
   "property": "C176",
   "status": "partial",
   "theorems": [
    "Verif.Helpers.C176_precedences",
    "Verif.Helpers.C176_sink_last",
    "Verif.Helpers.C176_kept",
    "Verif.Helpers.C176_acyclic",
    "Verif.Helpers.C176_modes",
    "Verif.Helpers.C176_too_many",
    "Verif.Helpers.C176_plain",
    "Verif.Helpers.C176_given_unchanged_refuted",
    "Verif.Helpers.C176_horizon_refuted",
    "Verif.Helpers.C176_acyclic_refuted",
    "Verif.Helpers.C176_source_first_refuted",
    "Verif.Helpers.C176_new_resource_refuted"
   ],
   "note": "Precedences, modes, resources, maps and exceptions (too many assisted activities, plain projects) for all projects and draws. Negations: the project given is changed (its resources are shared) so that its own schedule generation raises KeyError; the horizon is not multiplied; numbers that do not follow the precedences lead to cycles; helpers may start before the source; the name of the new resource may be taken."
  },
  {
   "property": "C177",
   "status": "partial",
   "theorems": [
    "Verif.Correct.C177_step",
    "Verif.Correct.C177_order",
    "Verif.Correct.C177_correct",
    "Verif.Correct.C177_gap",
    "Verif.Correct.C177_missing",
    "Verif.Correct.C177_alone",
    "Verif.Correct.C177_latest_refuted"
   ],
   "note": "Each move, the whole correction, the gap and the exceptions (helper not scheduled, helper without successors). Negation: helpers do not all end as late as possible, and evaluating a solution twice gives two gaps. Calendars (TypeError) are outside the hypotheses; makespan and reserve of evaluate are those of the base class."
  },
  {
   "property": "C178",
   "status": "partial",
   "theorems": [
    "Verif.Robust.C178_entries",
    "Verif.Robust.C178_between",
    "Verif.Robust.C178_made",
    "Verif.Robust.C178_worst",
    "Verif.Robust.C178_best",
    "Verif.Robust.C178_missing",
    "Verif.Robust.C178_makespan_refuted",
    "Verif.Robust.C178_rounded_refuted",
    "Verif.Robust.C178_split",
    "Verif.Robust.C178_no_test_refuted"
   ],
   "note": "Entries, bounds, existence, validity in worst and best case, exceptions. Negations: schedules generated for the project of largest values may be shorter than those of an instance; weighted aggregations and cut values; the training set without test instances."
  },
  {
   "property": "C179",
   "status": "partial",
   "theorems": [
    "Verif.Robust.C179_durations",
    "Verif.Robust.C179_requirements",
    "Verif.Robust.C179_contain",
    "Verif.Robust.C179_milestone_refuted",
    "Verif.Robust.C179_calendar_refuted"
   ],
   "note": "Every law of tidy projects (no resource called duration) for all ranges and switches. Negations: activities without duration get laws that do not contain it; calendars raise TypeError."
  },
  {
   "property": "C180",
   "status": "partial",
   "theorems": [
    "Verif.Robust.C180_probabilities",
    "Verif.Robust.C180_details",
    "Verif.Robust.C180_worst",
    "Verif.Robust.C180_percentile",
    "Verif.Robust.C180_percentile_mono",
    "Verif.Robust.C180_average",
    "Verif.Robust.C180_percentile_refuted",
    "Verif.Robust.C180_average_refuted",
    "Verif.Robust.C180_best_refuted"
   ],
   "note": "Probabilities, details, worst case, percentiles (quantile, monotone), average of equally probable values. Negations: percentiles turn requirements of 0 into 1, so that projects become infeasible; the average of generated laws is not the base project; best cases may be longer than the base project; Poisson laws of mean 0 raise ValueError. The mean of cut Poisson laws is bounded only by the law; floating point is not modelled."
  },
  {
   "property": "C181",
   "status": "partial",
   "theorems": [
    "Verif.CpRcpsp.C181_sound",
    "Verif.CpRcpsp.C181_complete_partial",
    "Verif.CpRcpsp.C181_chain_refuted",
    "Verif.CpRcpsp.C181_milestone_refuted",
    "Verif.CpRcpsp.C181_exceptions"
   ],
   "note": "Soundness of the program and completeness for schedules starting before the sum of the durations (with zero-duration activities requiring nothing) are proved; that every schedule solves the program is refuted by a chain of activities (no solution at all) and by a milestone with requirements (optimum 4 for a makespan of 3).  Exceptions proved."
  },
  {
   "property": "C182",
   "status": "partial",
   "theorems": [
    "Verif.CpMulti.C182_sound",
    "Verif.CpMulti.C182_complete_partial",
    "Verif.CpMulti.C182_source_refuted"
   ],
   "note": "Soundness with retrieval and completeness are proved (activities without duration require nothing, as the redundant constraints keep them off others); the shift of modes by a source with several modes is refuted with KeyError as witness.  Not modelled: calendars, partial solutions."
  },
  {
   "property": "C183",
   "status": "partial",
   "theorems": [
    "Verif.CpKnapsack.C183_list_partial",
    "Verif.CpKnapsack.C183_global_partial",
    "Verif.CpKnapsack.C183_same_partial",
    "Verif.CpKnapsack.C183_lns_partial",
    "Verif.CpKnapsack.C183_order_refuted",
    "Verif.CpKnapsack.C183_lns_error"
   ],
   "note": "Proved for items numbered by position (each index is the position); refuted for other orders by a concrete pair of items, with the exceptions.  Not modelled: time limits, intermediate solutions, the recorded results."
  },
  {
   "property": "C184",
   "status": "partial",
   "theorems": [
    "Verif.CpFacility.C184_sound",
    "Verif.CpFacility.C184_objective_partial",
    "Verif.CpFacility.C184_complete",
    "Verif.CpFacility.C184_optimal_partial",
    "Verif.CpFacility.C184_free_refuted",
    "Verif.CpFacility.C184_truncation_refuted",
    "Verif.CpFacility.C184_lns_partial",
    "Verif.CpFacility.C184_neighbourhood",
    "Verif.CpFacility.C184_overload_refuted"
   ],
   "note": "Soundness and completeness for all problems over whole numbers; equality of objective and cost, optimality and the neighbourhood search for positive demands; refuted for demands of zero, for numbers cut off and for an overloaded start.  Not modelled: time limits, the search annotation, the random choice of the fixed customers (a parameter)."
  },
  {
   "property": "C185",
   "status": "partial",
   "theorems": [
    "Verif.CpColoring.C185_size",
    "Verif.CpColoring.C185_directed_refuted",
    "Verif.CpColoring.C185_sound",
    "Verif.CpColoring.C185_complete",
    "Verif.CpColoring.C185_optimal",
    "Verif.CpColoring.C185_cliques_refuted",
    "Verif.CpColoring.C185_built",
    "Verif.CpColoring.C185_neighbourhood",
    "Verif.CpColoring.C185_lns",
    "Verif.CpColoring.C185_squeeze",
    "Verif.CpColoring.C185_squeeze_proper"
   ],
   "note": "Proved for undirected graphs whose edges are listed once; directed graphs, repeated edges and the program with cliques on small graphs are refuted.  Not modelled: time limits, search annotations, networkx (its cliques are a parameter), the random choice of the fixed nodes (a parameter)."
  },
  {
   "property": "C186",
   "status": "partial",
   "theorems": [
    "Verif.CpTsp.C186_built",
    "Verif.CpTsp.C186_sound",
    "Verif.CpTsp.C186_no_inner_refuted",
    "Verif.CpTsp.C186_complete",
    "Verif.CpTsp.C186_optimal",
    "Verif.CpTsp.C186_int_gap",
    "Verif.CpTsp.C186_negative",
    "Verif.CpTsp.C186_negative_refuted",
    "Verif.CpTsp.C186_int_refuted",
    "Verif.CpTsp.C186_directed_refuted"
   ],
   "note": "Soundness for all symmetric problems with a node to visit, completeness and optimality for distances of at least 0; the program over integers is optimal only up to its gap.  Refuted for cut off distances, negative distances and problems without inner nodes.  Distances are exact numbers, multiples of a unit.  Not modelled: time limits, search annotations."
  },
  {
   "property": "C187",
   "status": "partial",
   "theorems": [
    "Verif.CpModes.C187_sound",
    "Verif.CpModes.C187_complete",
    "Verif.CpModes.C187_errors",
    "Verif.CpModes.C187_order_refuted",
    "Verif.CpModes.C187_order_unsound_refuted"
   ],
   "note": "Soundness and completeness for all projects whose modes are numbered 1, 2, ... in the order of their dictionaries and whose first and last activity have mode 1 only; refuted (both ways) for other orders.  Not modelled: partial solutions, time limits, search annotations."
  },
  {
   "property": "C188",
   "status": "partial",
   "theorems": [
    "Verif.CpNeigh.C188_interval",
    "Verif.CpNeigh.C188_incumbent",
    "Verif.CpNeigh.C188_answers",
    "Verif.CpNeigh.C188_part",
    "Verif.CpNeigh.C188_turns",
    "Verif.CpNeigh.C188_mix",
    "Verif.CpNeigh.C188_choices",
    "Verif.CpNeigh.C188_returned_refuted",
    "Verif.CpNeigh.C188_worse_refuted"
   ],
   "note": "All proved for exact numbers; the two disagreements are witnessed.  Not modelled: rounding of floats, the refusal of newer versions of Python to sample from the keys of a dictionary, LNS_CP_RCPSP_SOLVER (its search is C117)."
  },
  {
   "property": "C189",
   "status": "partial",
   "theorems": [
    "Verif.CalBreaks.C189_breaks",
    "Verif.CalBreaks.C189_judge",
    "Verif.CalBreaks.C189_number",
    "Verif.CalBreaks.C189_cut_valid",
    "Verif.CalBreaks.C189_cut_excludes",
    "Verif.CalBreaks.C189_build",
    "Verif.CalBreaks.C189_modes_refuted",
    "Verif.CalBreaks.C189_beyond_refuted",
    "Verif.CalBreaks.C189_cut_void_refuted"
   ],
   "note": "All proved for starts and ends of at least 0; refuted for modes other than 1 and for times beyond the calendar.  The repaired solution is any schedule.  Not modelled: the capacity strings added for single breaks (with draws), the search around (as C117), check_solution for partial solutions, which is never reached."
  },
  {
   "property": "C190",
   "status": "partial",
   "theorems": [
    "Verif.MaxEnt.C190_cell",
    "Verif.MaxEnt.C190_index",
    "Verif.MaxEnt.C190_wraps_refuted",
    "Verif.MaxEnt.C190_top_refuted",
    "Verif.MaxEnt.C190_expectations",
    "Verif.MaxEnt.C190_gradient",
    "Verif.MaxEnt.C190_nonpositive",
    "Verif.MaxEnt.C190_bounded",
    "Verif.MaxEnt.C190_turn",
    "Verif.MaxEnt.C190_safe",
    "Verif.MaxEnt.C190_epoch",
    "Verif.MaxEnt.C190_returned",
    "Verif.MaxEnt.C190_lost_refuted",
    "Verif.MaxEnt.C190_expert_refuted",
    "Verif.MaxEnt.C190_policy",
    "Verif.MaxEnt.C190_episode",
    "Verif.MaxEnt.C190_loaded",
    "Verif.MaxEnt.C190_reduced_refuted",
    "Verif.MaxEnt.C190_below_refuted",
    "Verif.MaxEnt.C190_box_refuted",
    "Verif.MaxEnt.C190_missing_refuted"
   ],
   "note": "Proved for observations below the upper bounds, refuted at the bounds; loss of epochs, the unused expert, boxes and the missing file are refutations.  Numbers are exact, the world and the first weights parameters; tuples of spaces, files, plots, and process_stable_baselines_npz_trajs (never called) are not modelled."
  },
  {
   "property": "C191",
   "status": "partial",
   "theorems": [
    "Verif.CpVrp.C191_sound",
    "Verif.CpVrp.C191_complete",
    "Verif.CpVrp.C191_any",
    "Verif.CpVrp.C191_best",
    "Verif.CpVrp.C191_exact",
    "Verif.CpVrp.C191_search",
    "Verif.CpVrp.C191_cut_refuted"
   ],
   "note": "Proved for the program and its data; refuted for distances that are no whole numbers.  The model starts from the program: importing vrp_cp.py raises as things stand, since vrp/solver_toolbox.py is empty.  Loads below 0 are excluded by the program and by the specification.  Not modelled: time limits, statuses, the draw of neighbourhoods (any set)."
  },
  {
   "property": "C192",
   "status": "partial",
   "theorems": [
    "Verif.Comparator.C192_best",
    "Verif.Comparator.C192_best_raises",
    "Verif.Comparator.C192_names_refuted",
    "Verif.Comparator.C192_weights_refuted",
    "Verif.Comparator.C192_front",
    "Verif.Comparator.C192_front_refuted",
    "Verif.Comparator.C192_unbeaten",
    "Verif.Comparator.C192_reevaluated",
    "Verif.Comparator.C192_empty",
    "Verif.Comparator.C192_twice_refuted",
    "Verif.Comparator.C192_duplicates",
    "Verif.Comparator.C192_prefix_refuted"
   ],
   "note": "Proved for all stores with fitness vectors of one length; refuted for equal names, weights, stores to minimise, stores listed twice and attributes of different lengths.  Not modelled: plots and prints, numpy broadcasting."
  },
  {
   "property": "C193",
   "status": "partial",
   "theorems": [
    "Verif.Imopse.C193_round_trip",
    "Verif.Imopse.C193_write_raises",
    "Verif.Imopse.C193_workers_refuted",
    "Verif.Imopse.C193_recompute_refuted",
    "Verif.Imopse.C193_recompute",
    "Verif.Imopse.C193_word_refuted"
   ],
   "note": "Proved for all solutions with distinct original numbers and for all known tasks and workers; refuted for several workers, tasks without workers and problems whose workers are numbers.  Not modelled: opening and closing files."
  },
  {
   "property": "C194",
   "status": "partial",
   "theorems": [
    "Verif.ImopseRead.C194_read",
    "Verif.ImopseRead.C194_predecessor_raises",
    "Verif.ImopseRead.C194_names",
    "Verif.ImopseRead.C194_level_refuted",
    "Verif.ImopseRead.C194_zone_refuted"
   ],
   "note": "Proved for all files that describe a project; refuted for misplaced levels and a missing separator.  Not modelled: the calendars of workers, which are all true, and the resources, of which there are none."
  },
  {
   "property": "C195",
   "status": "partial",
   "theorems": [
    "Verif.TspTools.C195_greedy",
    "Verif.TspTools.C195_points_raise",
    "Verif.TspTools.C195_length",
    "Verif.TspTools.C195_length_raises",
    "Verif.TspTools.C195_baseline",
    "Verif.TspTools.C195_whole",
    "Verif.TspTools.C195_coincide_refuted",
    "Verif.TspTools.C195_nearest_refuted"
   ],
   "note": "Proved for points that do not coincide or orders by number; refuted for other orders and for the nearest node.  np.argsort promises no order of equal distances; numbers of 32 bits may overflow, which is not modelled.  build_matrice_distance and the parser of points (C164) are not part of this claim."
  },
  {
   "property": "C196",
   "status": "partial",
   "theorems": [
    "Verif.VrpTools.C196_graph",
    "Verif.VrpTools.C196_graph_refuted",
    "Verif.VrpTools.C196_prune",
    "Verif.VrpTools.C196_prune_refuted",
    "Verif.VrpTools.C196_recompute",
    "Verif.VrpTools.C196_first_refuted",
    "Verif.VrpTools.C196_output",
    "Verif.VrpTools.C196_output_refuted"
   ],
   "note": "Proved for all distances, routes that begin at the depot and tours for all vehicles; refuted for equal places, pruned distances below 1, other routes and missing tours.  The text of the objective and the order of equal distances are parameters; np.int is taken as int."
  },
  {
   "property": "C197",
   "status": "partial",
   "theorems": [
    "Verif.OrTools.C197_retrieve",
    "Verif.OrTools.C197_satisfied_partial",
    "Verif.OrTools.C197_end_refuted",
    "Verif.OrTools.C197_cost",
    "Verif.OrTools.C197_tour_cost_partial",
    "Verif.OrTools.C197_tour_cost_refuted",
    "Verif.OrTools.C197_tour_longer_refuted",
    "Verif.OrTools.C197_large_refuted",
    "Verif.OrTools.C197_tour"
   ],
   "note": "Proved for all assignments that meet what the library promises (each vehicle goes from its start to its end, every index that is no end is passed once, the demands of the nodes left fit) and all distances; refuted for demands at ends, distances of tours that are not whole and 1000 nodes or more.  The search of the library is not modelled; np.int is taken as int."
  },
  {
   "property": "C198",
   "status": "partial",
   "theorems": [
    "Verif.MsLpLns.C198_near",
    "Verif.MsLpLns.C198_improves",
    "Verif.MsLpLns.C198_sample_raises",
    "Verif.MsLpLns.C198_fix_refuted"
   ],
   "note": "Proved for all plans of the program of C155 and C156 and all drawn tasks; the handler that fixes starts is refuted for all plans.  Draws and the best solution are parameters; the removal of rows is the library's."
  },
  {
   "property": "C199",
   "status": "partial",
   "theorems": [
    "Verif.Registry.C199_last",
    "Verif.Registry.C199_look",
    "Verif.Registry.C199_unlisted_raises",
    "Verif.Registry.C199_tables",
    "Verif.Registry.C199_class_refuted",
    "Verif.Registry.C199_keys_refuted"
   ],
   "note": "Proved for all tables and classes; refuted for general and derived classes and solvers listed twice.  Classes are names; solve and return_solver are not modelled."
  },
  {
   "property": "C200",
   "status": "partial",
   "theorems": [
    "Verif.GanttLp.C200_sound",
    "Verif.GanttLp.C200_complete_partial",
    "Verif.GanttLp.C200_zero_refuted",
    "Verif.GanttLp.C200_nobody_raises"
   ],
   "note": "Proved sound without condition and complete for activities that take time; refuted for activities of no length.  The cliques of networkx are a parameter that contains every pair of activities that meet; the random objective, LP_MRCPSP_GANTT.retrieve_solutions (it returns nothing) are not modelled."
  },
  {
   "property": "C201",
   "status": "partial",
   "theorems": [
    "Verif.GanttLp.C201_work_valid",
    "Verif.GanttLp.C201_work_partial",
    "Verif.GanttLp.C201_tasks",
    "Verif.GanttLp.C201_objective",
    "Verif.GanttLp.C201_work_refuted",
    "Verif.GanttLp.C201_tasks_refuted",
    "Verif.GanttLp.C201_ignore_refuted"
   ],
   "note": "Proved for activities that do not contain the interval with both ends; refuted for the others, for duties of individuals who are not free and for entries to be ignored.  init_model of this class is that of C200; names of constraints, the pool of solutions of Gurobi and solve are not modelled."
  },
  {
   "property": "C202",
   "status": "partial",
   "theorems": [
    "Verif.Cgp.C202_range",
    "Verif.Cgp.C202_outside_raises",
    "Verif.Cgp.C202_inverse_refuted",
    "Verif.Cgp.C202_round",
    "Verif.Cgp.C202_extremes",
    "Verif.Cgp.C202_ends",
    "Verif.Cgp.C202_program"
   ],
   "note": "Proved over the real numbers for the whole default library; refuted for inv.  Errors of rounding of floats, by which a value may leave the range, are not modelled."
  },
  {
   "property": "C203",
   "status": "partial",
   "theorems": [
    "Verif.SkLoader.C203_load",
    "Verif.SkLoader.C203_empty_raises",
    "Verif.SkLoader.C203_calendar_refuted",
    "Verif.SkLoader.C203_name_refuted"
   ],
   "note": "Proved for all projects with distinct names; refuted for calendars, later availabilities and equal names.  The reading of the file is C194; the items passed on unchanged and load_domain are not modelled."
  },
  {
   "property": "C204",
   "status": "partial",
   "theorems": [
    "Verif.Portfolio.C204_choice",
    "Verif.Portfolio.C204_raises",
    "Verif.Portfolio.C204_negative_refuted",
    "Verif.Portfolio.C204_available"
   ],
   "note": "Proved for all weights of which none is negative and some positive, and for the cases that raise; refuted for negative weights.  Weights are exact; the check of numpy that probabilities sum to 1 up to rounding always holds then and is left out.  mutate_and_compute_obj chooses in the same way.  The first value of get_available_mutations, the mutations themselves and PermutationMutationRCPSP are not modelled here."
  },
  {
   "property": "C205",
   "status": "partial",
   "theorems": [
    "Verif.RcpspMut.C205_perm",
    "Verif.RcpspMut.C205_mutate",
    "Verif.RcpspMut.C205_modes_partial",
    "Verif.RcpspMut.C205_modes_refuted",
    "Verif.RcpspMut.C205_std_refuted",
    "Verif.RcpspMut.C205_stuck_refuted",
    "Verif.RcpspMut.C205_copy_refuted"
   ],
   "note": "Proved for all solutions that have a schedule and all ways of generating schedules; refuted, whenever objectives or permutations differ, for new modes, stored permutations, swallowed errors and copies.  Schedule generation is C26 and C27, the permutation of a schedule C58, the other mutations C20 and C46; local moves are not modelled here."
  }
 ]
}
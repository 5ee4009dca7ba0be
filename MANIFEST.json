{
 "claims": [
  {
   "property": "C01",
   "status": "proved",
   "theorems": [
    "Altro.Props.C01_violation_equality",
    "Altro.Props.C01_violation_inequality",
    "Altro.Props.C01_violation_zero_iff",
    "Altro.Props.C01_projection_feasible",
    "Altro.Props.C01_projection_nearest",
    "Altro.Props.C01_projection_fixed_iff",
    "Altro.Props.C01_violation_after_eval",
    "Altro.Props.C01_dual_projection_nearest"
   ],
   "note": ""
  },
  {
   "property": "C02",
   "status": "proved",
   "theorems": [
    "Altro.Props.C02_auglag_equality",
    "Altro.Props.C02_auglag_equality_vec",
    "Altro.Props.C02_auglag_inequality",
    "Altro.Props.C02_auglag_nonpos_of_feasible",
    "Altro.Props.C02_auglag_equality_feasible",
    "Altro.Props.C02_evaluate_eq",
    "Altro.Props.C02_evaluate_le_of_feasible"
   ],
   "note": ""
  },
  {
   "property": "C03",
   "status": "proved",
   "theorems": [
    "Altro.Props.C03_gradient_is_derivative",
    "Altro.Props.C03_augmented_gradient_is_derivative"
   ],
   "note": ""
  },
  {
   "property": "C04",
   "status": "proved",
   "theorems": [
    "Altro.Props.C04_hessian_quadForm",
    "Altro.Props.C04_hessian_psd",
    "Altro.Props.C04_augmented_hessian_psd",
    "Altro.Props.C04_hessian_exact_affine_equality"
   ],
   "note": ""
  },
  {
   "property": "C05",
   "status": "proved",
   "theorems": [
    "Altro.Props.C05_duals_feasible",
    "Altro.Props.C05_duals_feasible_cost",
    "Altro.Props.C05_update_value"
   ],
   "note": ""
  },
  {
   "property": "C06",
   "status": "proved",
   "theorems": [
    "Altro.Props.C06_gradient_is_lagrangian_gradient",
    "Altro.Props.C06_history_con",
    "Altro.Props.C06_update_fixed_iff"
   ],
   "note": ""
  },
  {
   "property": "C07",
   "status": "proved",
   "theorems": [
    "Altro.Props.C07_penalty_geometric",
    "Altro.Props.C07_penalty_after_set",
    "Altro.Props.C07_penalty_monotone",
    "Altro.Props.C07_max_penalty_bound",
    "Altro.Props.C07_max_penalty_attained",
    "Altro.Props.C07_defaults",
    "Altro.Props.C07_default_scaling",
    "Altro.Props.C07_solver_penalty",
    "Altro.Props.C07_solver_reset",
    "Altro.Props.C07_solver_duals"
   ],
   "note": ""
  },
  {
   "property": "C08",
   "status": "proved",
   "theorems": [
    "Altro.Props.C08_two_norm_sq",
    "Altro.Props.C08_max_violation_lt_iff",
    "Altro.Props.C08_max_violation_zero_iff",
    "Altro.Props.C08_one_norm_sum",
    "Altro.Props.C08_of_trajectory",
    "Altro.Props.C08_before"
   ],
   "note": ""
  },
  {
   "property": "C09",
   "status": "proved",
   "theorems": [
    "Altro.Props.C09_build",
    "Altro.Props.C09_solver",
    "Altro.Props.C09_counts",
    "Altro.Props.C09_counts_range",
    "Altro.Props.C09_counts_release",
    "Altro.Props.C09_second_call",
    "Altro.Props.C09_alcost",
    "Altro.Props.C09_counts_early"
   ],
   "note": ""
  },
  {
   "property": "C10",
   "status": "proved",
   "theorems": [
    "Altro.Props.C10_unsorted",
    "Altro.Props.C10_sorted",
    "Altro.Props.C10_comparison",
    "Altro.Props.C10_exists",
    "Altro.Props.C10_norm",
    "Altro.Props.C10_cost",
    "Altro.Props.C10_vector",
    "Altro.Props.C10_line",
    "Altro.Props.C10_printed"
   ],
   "note": "C10_unsorted, C10_sorted and C10_comparison for the records; C10_printed, C10_line and C10_vector show that the text printed by PrintViolations determines them."
  },
  {
   "property": "C11",
   "status": "proved",
   "theorems": [
    "Altro.Props.C11_inner_ok",
    "Altro.Props.C11_status",
    "Altro.Props.C11_solved_iff",
    "Altro.Props.C11_last_inner"
   ],
   "note": ""
  },
  {
   "property": "C12",
   "status": "proved",
   "theorems": [
    "Altro.Props.C12_total",
    "Altro.Props.C12_bounds",
    "Altro.Props.C12_returns",
    "Altro.Props.C12_status_from_this_call"
   ],
   "note": ""
  },
  {
   "property": "C13",
   "status": "proved",
   "theorems": [
    "Altro.Props.C13_alcost_penalties",
    "Altro.Props.C13_updates",
    "Altro.Props.C13_penalties"
   ],
   "note": ""
  },
  {
   "property": "C14",
   "status": "proved",
   "theorems": [
    "Altro.Props.C14_alcost_reset",
    "Altro.Props.C14_reset",
    "Altro.Props.C14_keep"
   ],
   "note": ""
  },
  {
   "property": "C15",
   "status": "partial",
   "theorems": [
    "Altro.Props.C15_counterexample",
    "Altro.Props.C15_accepted_partial",
    "Altro.Props.C15_reported_partial"
   ],
   "note": "False: after a failed line search the constraint values are those of the last rejected candidate (C15_counterexample: kSolved reported with violation 0, true violation 5/2). Proved for runs whose last inner line search succeeds."
  },
  {
   "property": "C16",
   "status": "partial",
   "theorems": [
    "Altro.Props.C16_stale_status_counterexample",
    "Altro.Props.C16_status_partial"
   ],
   "note": "False for max_iterations_outer <= 0: the status of the earlier solve stays (C16_stale_status_counterexample). Proved for at least one outer iteration."
  },
  {
   "property": "C17",
   "status": "proved",
   "theorems": [
    "Altro.Props.C17_outer",
    "Altro.Props.C17_dynamically_feasible"
   ],
   "note": ""
  },
  {
   "property": "C18",
   "status": "proved",
   "theorems": [
    "Altro.Props.C18_iteration",
    "Altro.Props.C18_cost_never_increases",
    "Altro.Props.C18_cost_le",
    "Altro.Props.C18_no_cost_increase_status"
   ],
   "note": ""
  },
  {
   "property": "C19",
   "status": "proved",
   "theorems": [
    "Altro.Props.C19_status",
    "Altro.Props.C19_never_unsolved"
   ],
   "note": ""
  },
  {
   "property": "C20",
   "status": "proved",
   "theorems": [
    "Altro.Props.C20_bounds",
    "Altro.Props.C20_increase",
    "Altro.Props.C20_decrease",
    "Altro.Props.C20_after_solve"
   ],
   "note": ""
  },
  {
   "property": "C21",
   "status": "partial",
   "theorems": [
    "Altro.Props.C21_result_unique",
    "Altro.Props.C21_no_segments_diverges",
    "Altro.Props.C21_zero_regularization_diverges",
    "Altro.Props.C21_terminates_bound_partial",
    "Altro.Props.C21_terminates_partial",
    "Altro.Props.C21_solve_returns_partial"
   ],
   "note": "False for N = 0 and for bp_reg_min = 0 (divergence theorems, any number of rounds). The _partial theorems prove termination, with an explicit bound, for N > 0, 0 < bp_reg_min <= bp_reg_max, factor > 1."
  },
  {
   "property": "C22",
   "status": "partial",
   "theorems": [
    "Altro.Props.C22_accumulated",
    "Altro.Props.C22_gave_up",
    "Altro.Props.C22_exact_iff",
    "Altro.Props.C22_expected_decrease_partial",
    "Altro.Props.C22_counterexample"
   ],
   "note": "False when a factorization fails: aborted sweeps stay in deltaV (C22_counterexample). C22_accumulated and C22_gave_up give the exact value for every backward pass; C22_exact_iff: the expected improvement is never too small, and right if and only if the feedforward terms of all stopped sweeps vanish."
  },
  {
   "property": "C23",
   "status": "partial",
   "theorems": [
    "Altro.Props.C23_failure_never_reported",
    "Altro.Props.C23_counterexample",
    "Altro.Props.C23_reported_without_line_search_partial"
   ],
   "note": "False: with line_search_max_iterations >= 1 the status is never kBackwardPassRegularizationFailed (C23_failure_never_reported), and a run that gives up can end kSolved (C23_counterexample). Partial theorem covers line_search_max_iterations <= 0."
  },
  {
   "property": "C24",
   "status": "proved",
   "theorems": [
    "Altro.Props.C24_reference_cost",
    "Altro.Props.C24_accepts_first",
    "Altro.Props.C24_rejects",
    "Altro.Props.C24_sufficient_decrease"
   ],
   "note": ""
  },
  {
   "property": "C25",
   "status": "partial",
   "theorems": [
    "Altro.Props.C25_step_partial",
    "Altro.Props.C25_first_partial",
    "Altro.Props.C25_solve_partial",
    "Altro.Props.C25_solve_exact",
    "Altro.Props.C25_counterexample",
    "Altro.Props.C25_counterexample_consequence"
   ],
   "note": "False when no step is accepted (C25_counterexample). C25_solve_exact: after every solve the record is right if and only if the cost was lowered or the old record equalled the initial cost; C25_step_partial and C25_first_partial cover the recorded changes."
  },
  {
   "property": "C26",
   "status": "partial",
   "theorems": [
    "Altro.Props.C26_reset_partial",
    "Altro.Props.C26_counterexample",
    "Altro.Props.C26_repeat_partial",
    "Altro.Props.C26_record_counterexample",
    "Altro.Props.C26_gains_counterexample"
   ],
   "note": "False in general; three causes are exhibited by concrete runs: the total-iteration budget carries over (C26_counterexample), a failed first line search records a cost change computed from the previous solve's record (C26_record_counterexample), and a backward pass that gives up leaves the previous solve's gains in use (C26_gains_counterexample). Away from these three, C26_repeat_partial proves that after any sequence of earlier solves, with any options and trajectories, a solve from the same initial controls gives the same status, iterations, states and controls; the hypotheses on the problem's functions are discharged for augmented Lagrangian costs (alMemoryless)."
  },
  {
   "property": "C27",
   "status": "proved",
   "theorems": [
    "Altro.Props.C27_action_value",
    "Altro.Props.C27_frame"
   ],
   "note": ""
  },
  {
   "property": "C28",
   "status": "proved",
   "theorems": [
    "Altro.Props.C28_cholesky",
    "Altro.Props.C28_minimiser",
    "Altro.Props.C28_success_iff",
    "Altro.Props.C28_regularised"
   ],
   "note": ""
  },
  {
   "property": "C29",
   "status": "proved",
   "theorems": [
    "Altro.Props.C29_cost_to_go",
    "Altro.Props.C29_delta",
    "Altro.Props.C29_frame"
   ],
   "note": ""
  },
  {
   "property": "C30",
   "status": "proved",
   "theorems": [
    "Altro.Props.C30_step",
    "Altro.Props.C30_sweep",
    "Altro.Props.C30_backward_pass_terminal",
    "Altro.Props.C30_backward_pass"
   ],
   "note": ""
  },
  {
   "property": "C31",
   "status": "proved",
   "theorems": [
    "Altro.Props.C31_predicted"
   ],
   "note": ""
  },
  {
   "property": "C32",
   "status": "proved",
   "theorems": [
    "Altro.Props.C32_cost_identity",
    "Altro.Props.C32_exact_prediction",
    "Altro.Props.C32_full_step_optimal",
    "Altro.Props.C32_expansions_exact",
    "Altro.Props.C32_sweep",
    "Altro.Props.C32_one_iteration",
    "Altro.Props.C32_solve"
   ],
   "note": ""
  },
  {
   "property": "C33",
   "status": "proved",
   "theorems": [
    "Altro.Props.C33_euler"
   ],
   "note": ""
  },
  {
   "property": "C34",
   "status": "partial",
   "theorems": [
    "Altro.Props.C34_unicycle_partial",
    "Altro.Props.C34_triple_integrator_partial",
    "Altro.Props.C34_assembly",
    "Altro.Props.C34_rk4_partial",
    "Altro.Props.C34_counterexample"
   ],
   "note": "False for time-varying dynamics: the Jacobian stages are evaluated at t, t/2, t/2, t instead of t, t+h/2, t+h/2, t+h (C34_counterexample: dx/dt = t x). Proved for time-invariant dynamics; C34_assembly proves the chain-rule assembly correct for any dynamics when the stage Jacobians are taken at the right points."
  },
  {
   "property": "C35",
   "status": "proved",
   "theorems": [
    "Altro.Props.C35_triple_integrator",
    "Altro.Props.C35_triple_integrator_exact",
    "Altro.Props.C35_lti"
   ],
   "note": ""
  },
  {
   "property": "C36",
   "status": "proved",
   "theorems": [
    "Altro.Props.C36_columns",
    "Altro.Props.C36_affine",
    "Altro.Props.C36_quadratic",
    "Altro.Props.C36_quadratic_forward",
    "Altro.Props.C36_hessian"
   ],
   "note": ""
  },
  {
   "property": "C37",
   "status": "proved",
   "theorems": [
    "Altro.Props.C37_expansion",
    "Altro.Props.C37_gradient",
    "Altro.Props.C37_hessian",
    "Altro.Props.C37_lqr",
    "Altro.Props.C37_symmetry_needed"
   ],
   "note": ""
  },
  {
   "property": "C38",
   "status": "proved",
   "theorems": [
    "Altro.Props.C38_goal",
    "Altro.Props.C38_indices",
    "Altro.Props.C38_bounds",
    "Altro.Props.C38_bounds_jacobian"
   ],
   "note": ""
  },
  {
   "property": "C39",
   "status": "partial",
   "theorems": [
    "Altro.Props.C39_outside",
    "Altro.Props.C39_distance",
    "Altro.Props.C39_jacobian_partial",
    "Altro.Props.C39_counterexample",
    "Altro.Props.C39_jacobian_iff",
    "Altro.Props.C39_gradient"
   ],
   "note": "The row signs are proved for all position indices. The Jacobian is written to columns 0 and 1 whatever the configured indices are (C39_counterexample with indices 1, 2). Proved for indices 0 and 1."
  },
  {
   "property": "C40",
   "status": "proved",
   "theorems": [
    "Altro.Props.C40_triple_integrator",
    "Altro.Props.C40_triple_integrator_invariant",
    "Altro.Props.C40_unicycle_row",
    "Altro.Props.C40_unicycle",
    "Altro.Props.C40_unicycle_invariant",
    "Altro.Props.C40_unicycle_buffer",
    "Altro.Props.C40_unicycle_hessian"
   ],
   "note": ""
  },
  {
   "property": "C41",
   "status": "partial",
   "theorems": [
    "Altro.Props.C41_exact_partial",
    "Altro.Props.C41_unsafe_counterexample",
    "Altro.Props.C41_terminal",
    "Altro.Props.C41_positive",
    "Altro.Props.C41_getters",
    "Altro.Props.C41_index_counterexample"
   ],
   "note": "False: IsFullyDefined dereferences a null pointer when an initial state is set but the first model is not (C41_unsafe_counterexample, every such history), and SetConstraint does not check its index (C41_index_counterexample). Proved for every safe query."
  },
  {
   "property": "C42",
   "status": "proved",
   "theorems": [
    "Altro.Props.C42_count",
    "Altro.Props.C42_release",
    "Altro.Props.C42_index"
   ],
   "note": ""
  },
  {
   "property": "C43",
   "status": "partial",
   "theorems": [
    "Altro.Props.C43_content_partial",
    "Altro.Props.C43_assign_partial",
    "Altro.Props.C43_counterexample",
    "Altro.Props.C43_aliasing",
    "Altro.Props.C43_assign_counterexample",
    "Altro.Props.C43_moved_from"
   ],
   "note": "False: no copy or move operation transfers the number of segments (C43_counterexample, every source problem). Everything else is transferred."
  },
  {
   "property": "C44",
   "status": "partial",
   "theorems": [
    "Altro.Props.C44_stored",
    "Altro.Props.C44_exact_partial",
    "Altro.Props.C44_terminal",
    "Altro.Props.C44_dyadic_partial",
    "Altro.Props.C44_float_partial",
    "Altro.Props.C44_counterexample",
    "Altro.Props.C44_vectors",
    "Altro.Props.C44_vectors_rejected",
    "Altro.Props.C44_vectors_empty"
   ],
   "note": "Exact arithmetic proved for every N and h. In binary32 arithmetic: false for h = 0.1f and every N >= 164 (C44_counterexample); proved for N h <= 5 and for steps that are short binary fractions."
  },
  {
   "property": "C45",
   "status": "proved",
   "theorems": [
    "Altro.Queue.C45_linearizable",
    "Altro.Queue.C45_prefix",
    "Altro.Queue.C45_nodes",
    "Altro.Queue.C45_defined",
    "Altro.Queue.C45_writes",
    "Altro.Queue.C45_reads",
    "Altro.Queue.C45_no_race"
   ],
   "note": ""
  },
  {
   "property": "C46",
   "status": "partial",
   "theorems": [
    "Altro.Queue.C46_bound_partial",
    "Altro.Queue.C46_quiescent_partial",
    "Altro.Queue.C46_counterexample"
   ],
   "note": "False: the counter is incremented after the tail lock is released, so an empty queue can report 2^64-1 (C46_counterexample). Proved: exact whenever no operation is in progress, and off by exactly the operations in flight (mod 2^64) otherwise."
  },
  {
   "property": "C47",
   "status": "partial",
   "theorems": [
    "Altro.Queue.C47_never_returns_counterexample",
    "Altro.Queue.C47_enters",
    "Altro.Queue.C47_counterexample"
   ],
   "note": "False for every queue state: Clear locks head_mutex_ and calls IsEmpty, which locks it again; under every schedule the call never returns (C47_never_returns_counterexample)."
  },
  {
   "property": "C48",
   "status": "partial",
   "theorems": [
    "Altro.Pool.C48_defined",
    "Altro.Pool.C48_once",
    "Altro.Pool.C48_steps",
    "Altro.Pool.C48_order_partial",
    "Altro.Pool.C48_wait",
    "Altro.Pool.C48_effects",
    "Altro.Pool.C48_all",
    "Altro.Pool.C48_order_counterexample"
   ],
   "note": "Proved for every schedule: each task is started at most once and in order of dequeue, all its steps run in order exactly once, Wait without a timeout message returns only after all of them finished, effects are visible. The 'start in the order added' part is false with two workers (C48_order_counterexample); the dequeue order is proved instead."
  },
  {
   "property": "C49",
   "status": "partial",
   "theorems": [
    "Altro.Pool.C49_timeout_counterexample",
    "Altro.Pool.C49_counterexample",
    "Altro.Pool.C49_partial"
   ],
   "note": "False: Wait() gives each future a bounded wait and then goes on, so it can return with unfinished tasks (C49_counterexample). Without a timeout message the claim holds (C49_partial)."
  },
  {
   "property": "C50",
   "status": "proved",
   "theorems": [
    "Altro.Pool.C50_stopped",
    "Altro.Pool.C50_runs",
    "Altro.Pool.C50_fair_exists",
    "Altro.Pool.C50_launch"
   ],
   "note": ""
  },
  {
   "property": "C51",
   "status": "partial",
   "theorems": [
    "Altro.Tasks.C51_returned_partial",
    "Altro.Tasks.C51_exact_partial",
    "Altro.Tasks.C51_dyadic_partial",
    "Altro.Tasks.C51_total_partial",
    "Altro.Tasks.C51_counterexample",
    "Altro.Tasks.C51_counterexample_more",
    "Altro.Tasks.C51_zero_counterexample",
    "Altro.Tasks.C51_negative_counterexample",
    "Altro.Tasks.C51_threads",
    "Altro.Tasks.C51_threads_given",
    "Altro.Tasks.C51_hardware_counterexample",
    "Altro.Tasks.C51_round",
    "Altro.Tasks.C51_redo"
   ],
   "note": "False as stated: summing the step in double arithmetic can step over N and the assertion fails (C51_counterexample: 50 segments, 6 threads); zero tasks per thread always fails it and a negative number never terminates. Proved: whatever is returned is a partition (any monotone rounding), the loop ends for all int sizes and returns or fails the assertion, in exact arithmetic it always returns the requested number of tasks, and in double arithmetic it does whenever the number of tasks divides N*2^j."
  },
  {
   "property": "C52",
   "status": "partial",
   "theorems": [
    "Altro.Tasks.C52_fresh_counterexample",
    "Altro.Tasks.C52_serial_counterexample",
    "Altro.Tasks.C52_accepts_counterexample",
    "Altro.Tasks.C52_rejects_counterexample",
    "Altro.Tasks.C52_unused_counterexample",
    "Altro.Tasks.C52_accepts_partial",
    "Altro.Tasks.C52_used_partial",
    "Altro.Tasks.C52_history_partial"
   ],
   "note": "False: the checks look at the old assignment. Fresh or serial solvers: undefined behaviour; invalid vectors accepted; an accepted vector is not used by the next solve. Proved: with a valid old assignment exactly the increasing vectors are accepted, and a valid one is used if the thread count changes."
  },
  {
   "property": "C53",
   "status": "partial",
   "theorems": [
    "Altro.Pool.C53_batch",
    "Altro.ILQR.C53_partial",
    "Altro.ILQR.C53_default_partial",
    "Altro.Pool.C53_shared_counterexample"
   ],
   "note": "Proved for all schedules and partitions when knot points share no mutable object and no Wait times out (C53_partial). False if two knot points share a dynamics object, whose integrator has scratch memory (C53_shared_counterexample)."
  },
  {
   "property": "C54",
   "status": "proved",
   "theorems": [
    "Altro.Props.C54_length",
    "Altro.Props.C54_last_entry",
    "Altro.Props.C54_entry"
   ],
   "note": ""
  },
  {
   "property": "C55",
   "status": "partial",
   "theorems": [
    "Altro.Props.C55_columns_partial",
    "Altro.Props.C55_add_partial",
    "Altro.Props.C55_print_partial",
    "Altro.Props.C55_layout",
    "Altro.Props.C55_cleared",
    "Altro.Props.C55_solver_levels",
    "Altro.Props.C55_solver_table",
    "Altro.Props.C55_duplicate_counterexample",
    "Altro.Props.C55_phantom_counterexample",
    "Altro.Props.C55_blank_counterexample",
    "Altro.Props.C55_silent_counterexample",
    "Altro.Props.C55_printed_iff",
    "Altro.Props.C55_phantom_entry"
   ],
   "note": "Proved for loggers whose titles are each added once and before any other use. False otherwise: adding a title again gives a second column, and an unknown title that is logged or configured leaves a phantom entry; a blank row is possible, and nothing is printed at silent level (counterexamples)."
  },
  {
   "property": "C56",
   "status": "partial",
   "theorems": [
    "Altro.Props.C56_calls_partial",
    "Altro.Props.C56_lines_partial",
    "Altro.Props.C56_zero_counterexample",
    "Altro.Props.C56_reset_partial",
    "Altro.Props.C56_silent_counterexample"
   ],
   "note": "Proved for a positive frequency, per print call and per line of output. False for frequency 0, which SetFrequency accepts (remainder by zero), and calls at silent level are counted although they print nothing (counterexamples)."
  },
  {
   "property": "C57",
   "status": "proved",
   "theorems": [
    "Altro.Props.C57_bounds",
    "Altro.Props.C57_accepts",
    "Altro.Props.C57_colour",
    "Altro.Props.C57_exactly",
    "Altro.Props.C57_table",
    "Altro.Props.C57_tolerances",
    "Altro.Props.C57_attributes",
    "Altro.Props.C57_logged_not_printed"
   ],
   "note": "Proved. The bounds are those in force when the value is logged; C57_logged_not_printed shows that bounds set later do not change the colour of a value already logged."
  },
  {
   "property": "C58",
   "status": "partial",
   "theorems": [
    "Altro.Props.C58_totals",
    "Altro.Props.C58_paths_partial",
    "Altro.Props.C58_slash_counterexample"
   ],
   "note": "C58_totals holds for every program, by the key string in the map. By path it is proved for names without '/'; C58_slash_counterexample shows two paths merged when a name has one."
  },
  {
   "property": "C59",
   "status": "partial",
   "theorems": [
    "Altro.Props.C59_partial",
    "Altro.Props.C59_counterexample"
   ],
   "note": "Proved for keys whose characters sort at or after '/'. False for keys with characters sorting before '/', such as '-' (counterexample). C60_program_partial derives the hypotheses for programs."
  },
  {
   "property": "C60",
   "status": "partial",
   "theorems": [
    "Altro.Props.C60_partial",
    "Altro.Props.C60_defined_iff",
    "Altro.Props.C60_program_partial",
    "Altro.Props.C60_overflow_counterexample",
    "Altro.Props.C60_wrap_counterexample",
    "Altro.Props.C60_zero_counterexample",
    "Altro.Props.C60_defined"
   ],
   "note": "Proved for totals below 2^31/100 microseconds (about 21 s), and for every program of nested scopes with a monotone clock. False beyond that: signed overflow, wrap-around of the conversion to int, and -1 for a zero denominator (counterexamples)."
  },
  {
   "property": "C61",
   "status": "partial",
   "theorems": [
    "Altro.StatsMove.C61_moved_counterexample",
    "Altro.StatsMove.C61_unused_counterexample",
    "Altro.StatsMove.C61_undefined_counterexample",
    "Altro.StatsMove.C61_assign_counterexample",
    "Altro.StatsMove.C61_unmoved_partial",
    "Altro.StatsMove.C61_counters_partial",
    "Altro.StatsMove.C61_counters",
    "Altro.StatsMove.C61_dangling_counterexample"
   ],
   "note": "The claim is false: C61_moved_counterexample proves, for every history before and after the move, that the vectors read from a move-constructed object never change (floats_ keeps the addresses of the first object's vectors), and logging is undefined when something was recorded before the move. Proved for objects that are not moved and for the integer counters. Object identifiers stand for addresses that are not recycled."
  },
  {
   "property": "C62",
   "status": "partial",
   "theorems": [
    "Altro.Props.C62_joint_partial",
    "Altro.Props.C62_blocks_partial",
    "Altro.Props.C62_counterexample"
   ],
   "note": "False for costs with cross terms: the lower left block is never written (C62_counterexample, every quadratic cost with H != 0). Proved when the cross term is zero; C62_blocks_partial says what each block holds in general."
  },
  {
   "property": "C63",
   "status": "proved",
   "theorems": [
    "Altro.Queue.C63_no_deadlock",
    "Altro.Queue.C63_bounded"
   ],
   "note": ""
  },
  {
   "property": "C64",
   "status": "proved",
   "theorems": [
    "Altro.Pool.C64_bounded",
    "Altro.Pool.C64_no_deadlock",
    "Altro.Pool.C64_returns"
   ],
   "note": ""
  },
  {
   "property": "C65",
   "status": "proved",
   "theorems": [
    "Altro.Props.C65_sweep",
    "Altro.Props.C65_backward_pass",
    "Altro.Props.C65_gradient_measure"
   ],
   "note": "Over the reals, exact arithmetic. `ReportsDerivatives` is the assumption on the user's functions; `C03_augmented_gradient_is_derivative` discharges its cost part for augmented costs. Concrete case: `DescentDemo` (nonlinear dynamics)."
  },
  {
   "property": "C66",
   "status": "proved",
   "theorems": [
    "Altro.Props.C66_slope",
    "Altro.Props.C66_slope_unregularized",
    "Altro.Props.C66_slope_convex",
    "Altro.Props.C66_derivative",
    "Altro.Props.C66_descent",
    "Altro.Props.C66_line_search",
    "Altro.Props.C66_line_search_unregularized"
   ],
   "note": "Over the reals, exact arithmetic. Assumes the first sweep succeeds (after a restart deltaV is not the sum for the last sweep, see C22) and that the terminal cost ignores the terminal control (the candidate carries the one stored in Zbar_). Without convexity and with regularization the derivative is the formula in `C66_slope`; its sign is not claimed. Concrete case: `DescentDemo`."
  },
  {
   "property": "C67",
   "status": "proved",
   "theorems": [
    "Altro.Props.C67_updated_multipliers",
    "Altro.Props.C67_fixed_point_iff_kkt",
    "Altro.Props.C67_solver",
    "Altro.Props.C67_convex_optimal"
   ],
   "note": "Over the reals, exact arithmetic. `Spec/KKT.lean` states the KKT conditions without the model's helpers. `ReadyAt` (buffers, uniform positive penalties, dual sign) is discharged for every history by `readyAt_history`; what remains assumed is that the user's derivatives are right. The terminal control, which drives no segment, is not varied. Concrete case: `KKTDemo`."
  },
  {
   "property": "C68",
   "status": "proved",
   "theorems": [
    "Altro.Props.C68_undefined_iff",
    "Altro.Props.C68_jacobian_iff",
    "Altro.Props.C68_jacobian_sound",
    "Altro.Props.C68_jacobian_complete",
    "Altro.Props.C68_jacobian_affine",
    "Altro.Props.C68_tolerance",
    "Altro.Props.C68_gradient_eq_jacobian",
    "Altro.Props.C68_hessian_quadratic",
    "Altro.Props.C68_hessian_default",
    "Altro.Props.C68_random_jacobian",
    "Altro.Props.C68_random_affine",
    "Altro.Props.C68_random_gradient",
    "Altro.Props.C68_random_hessian",
    "Altro.Props.C68_random_hessian_iff",
    "Altro.Props.C68_random_example"
   ],
   "note": "Over the reals: the difference quotients are exact, rounding (which for step 1e-6 is of the order 1e-10 times the values) is not included."
  },
  {
   "property": "C69",
   "status": "partial",
   "theorems": [
    "Altro.Props.C69_contiguous",
    "Altro.Props.C69_strided",
    "Altro.Props.C69_counterexample"
   ],
   "note": "Proved for contiguous views and refuted for every strided view with two or more columns (`C69_counterexample`): a defect of the code."
  },
  {
   "property": "C70",
   "status": "partial",
   "theorems": [
    "Altro.Props.C70_accepted_iff",
    "Altro.Props.C70_release",
    "Altro.Props.C70_weights",
    "Altro.Props.C70_gradient_error",
    "Altro.Props.C70_convex",
    "Altro.Props.C70_backward_pass",
    "Altro.Props.C70_coupling_counterexample",
    "Altro.Props.C70_block_diagonal"
   ],
   "note": "Eigen's LDLT is a parameter assumed to be a factorization when it reports success (`Factorizes`); nothing is assumed about when it succeeds, so acceptance of every semidefinite Q is not claimed. The missing check of the coupling term is shown by `C70_coupling_counterexample`."
  },
  {
   "property": "C71",
   "status": "partial",
   "theorems": [
    "Altro.Props.C71_triple",
    "Altro.Props.C71_triple_constraints",
    "Altro.Props.C71_uninitialised_counterexample",
    "Altro.Props.C71_unicycle",
    "Altro.Props.C71_unicycle_bounds",
    "Altro.Props.C71_flag_counterexample",
    "Altro.Props.C71_again",
    "Altro.Props.C71_unicycle_values",
    "Altro.Props.C71_bounds_assigned",
    "Altro.Props.C71_stale_counterexample",
    "Altro.Props.C71_triple_data",
    "Altro.Props.C71_obstacles"
   ],
   "note": "The false parts are `C71_uninitialised_counterexample`, `C71_flag_counterexample`, `C71_stale_counterexample`. Single-precision division is a parameter."
  },
  {
   "property": "C72",
   "status": "partial",
   "theorems": [
    "Altro.Props.C72_constructor",
    "Altro.Props.C72_constructed",
    "Altro.Props.C72_fresh",
    "Altro.Props.C72_start",
    "Altro.Props.C72_forgotten",
    "Altro.Props.C72_inputs",
    "Altro.Props.C72_pieces",
    "Altro.Props.C72_standard",
    "Altro.Props.C72_make_counterexample",
    "Altro.Props.C72_make_then_set",
    "Altro.Props.C72_length_counterexample",
    "Altro.Props.C72_subset_counterexample",
    "Altro.Props.C72_twice_counterexample"
   ],
   "note": "The false parts are `C72_make_counterexample`, `C72_length_counterexample`, `C72_subset_counterexample`, `C72_twice_counterexample`; `C72_start` says exactly when Solve starts."
  },
  {
   "property": "C73",
   "status": "partial",
   "theorems": [
    "Altro.Props.C73_describes",
    "Altro.Props.C73_order",
    "Altro.Props.C73_empty_counterexample",
    "Altro.Props.C73_consistent",
    "Altro.Props.C73_benchmark",
    "Altro.Props.C73_number_counterexample"
   ],
   "note": "Durations are real numbers, not double. The claim for all numbers of samples fails for n <= 0 (`C73_empty_counterexample`, `C73_number_counterexample`)."
  },
  {
   "property": "C74",
   "status": "partial",
   "theorems": [
    "Altro.Tasks.C74_counts",
    "Altro.Tasks.C74_all",
    "Altro.Tasks.C74_exact",
    "Altro.Tasks.C74_counterexample",
    "Altro.Tasks.C74_threads_counterexample",
    "Altro.Tasks.C74_diverges"
   ],
   "note": "False in double precision: `C74_counterexample`; see also `C74_threads_counterexample`, `C74_diverges`."
  },
  {
   "property": "C75",
   "status": "partial",
   "theorems": [
    "Altro.Props.C75_unmoved_partial",
    "Altro.Props.C75_moved_counterexample",
    "Altro.Props.C75_undefined_counterexample",
    "Altro.Props.C75_returned_counterexample",
    "Altro.Props.C75_tasks_counterexample",
    "Altro.Props.C75_source_counterexample",
    "Altro.Props.C75_defined"
   ],
   "note": "False for moved solvers: `C75_moved_counterexample`, `C75_undefined_counterexample`, `C75_returned_counterexample`, `C75_tasks_counterexample`; `C75_unmoved_partial` is what holds."
  },
  {
   "property": "C76",
   "status": "partial",
   "theorems": [
    "Altro.Props.C76_step",
    "Altro.Props.C76_history_partial",
    "Altro.Props.C76_fixed",
    "Altro.Props.C76_convert",
    "Altro.Props.C76_receives",
    "Altro.Props.C76_set",
    "Altro.Props.C76_terminal",
    "Altro.Props.C76_printed",
    "Altro.Props.C76_state_control",
    "Altro.Props.C76_moved_counterexample",
    "Altro.Props.C76_exchanged_counterexample",
    "Altro.Props.C76_resized_counterexample",
    "Altro.Props.C76_state_control_counterexample",
    "Altro.Props.C76_random"
   ],
   "note": "False in general (four counterexample theorems); `C76_step` characterises exactly the operations that keep it, `C76_fixed` covers sizes fixed at compile time completely. C76_random covers Random."
  },
  {
   "property": "C77",
   "status": "partial",
   "theorems": [
    "Altro.Props.C77_reported_nan",
    "Altro.Props.C77_reported_partial",
    "Altro.Props.C77_masked_knot_counterexample",
    "Altro.Props.C77_masked_inequalities_counterexample",
    "Altro.Props.C77_cost_inequality",
    "Altro.Props.C77_duals_inequality",
    "Altro.Props.C77_cost_equality",
    "Altro.Props.C77_duals_equality",
    "Altro.Props.C77_cost_multiplier",
    "Altro.Props.C77_cost_penalty",
    "Altro.Props.C77_refines",
    "Altro.Props.C77_refines_cost",
    "Altro.Props.C77_sort_counterexample",
    "Altro.Props.C77_cost",
    "Altro.Props.C77_solved_counterexample",
    "Altro.Props.C77_cost_counterexample"
   ],
   "note": "False of the code (five counterexample theorems, three of them general). `C77_reported_nan`, `C77_cost` and `C77_sort_counterexample` are exact characterisations; `C77_refines` links the NaN model to the model used elsewhere. Eigen's maximum is taken as a sequential reduction."
  },
  {
   "property": "C78",
   "status": "partial",
   "theorems": [
    "Altro.Props.PoolMove.C78_conserved",
    "Altro.Props.PoolMove.C78_order",
    "Altro.Props.PoolMove.C78_added",
    "Altro.Props.PoolMove.C78_move",
    "Altro.Props.PoolMove.C78_safe",
    "Altro.Props.PoolMove.C78_assign_counterexample",
    "Altro.Props.PoolMove.C78_release_counterexample",
    "Altro.Props.PoolMove.C78_queue_empty"
   ],
   "note": "Queue operations are atomic here (the node-level model is C45-C47). `C78_safe` characterises every failing call in a debug build. False parts: `C78_assign_counterexample` (every world), `C78_release_counterexample`."
  },
  {
   "property": "C79",
   "status": "proved",
   "theorems": [
    "Altro.Props.C79_step",
    "Altro.Props.C79_objective",
    "Altro.Props.C79_objective_equality",
    "Altro.Props.C79_solve",
    "Altro.Props.C79_solve_equality",
    "Altro.Props.C79_solved",
    "Altro.Props.C79_returns"
   ],
   "note": "Exact arithmetic. `ExactSolve` (Spec/Convex.lean) says the inner solver returns a minimiser of the augmented cost; C80 proves it of the real inner solver for linear-quadratic problems. Existence of multipliers is a hypothesis here (`Saddle`) and a theorem in C80."
  },
  {
   "property": "C80",
   "status": "proved",
   "theorems": [
    "Altro.Props.C80_inner",
    "Altro.Props.C80_solve",
    "Altro.Props.C80_multipliers",
    "Altro.Props.C80_converges"
   ],
   "note": "Composes C79 with the Riccati/LQ theory of the inner solver. Exact arithmetic; state and control bound checks off (`LQOptions`). A concrete problem is run in the kernel: four outer and eight inner iterations."
  },
  {
   "property": "C81",
   "status": "partial",
   "theorems": [
    "Altro.Props.C81_history",
    "Altro.Props.C81_repeat_partial",
    "Altro.Props.C81_gains_counterexample",
    "Altro.Props.C81_options_counterexample"
   ],
   "note": "Partial because the claim is false of the code: if the first backward pass gives up, the line search uses the gains an earlier solve left in the knot points (C81_gains_counterexample). C81_repeat_partial proves it in every other case (giving up in later passes is allowed) and `alReplay` shows that the code's own ALCost objects meet the hypotheses. C81_options_counterexample: both option hypotheses are needed."
  },
  {
   "property": "C82",
   "status": "proved",
   "theorems": [
    "Altro.Props.C82_inner_returns",
    "Altro.Props.C82_returns",
    "Altro.Props.C82_regularization",
    "Altro.Props.C82_ieee",
    "Altro.Props.C82_zeros",
    "Altro.Props.C82_literal_neg",
    "Altro.Props.C82_default_values",
    "Altro.Props.C82_default",
    "Altro.Props.C82_default_inner",
    "Altro.Props.C82_sweeps_needed",
    "Altro.Props.C82_nan_forever",
    "Altro.Props.C82_infinite_initial",
    "Altro.Props.C82_invalid",
    "Altro.Props.C82_commute",
    "Altro.Props.C82_sign"
   ],
   "note": "Model/Double.lean is binary64 with round-to-nearest-even over the rationals; one NaN, no excess precision or contraction. Eigen and user code are arbitrary functions. C82_sweeps_needed: the bound 112 is attained. C82_nan_forever and C82_infinite_initial: with a NaN or infinite bp_reg_initial (excluded) a backward pass can run forever."
  },
  {
   "property": "C83",
   "status": "proved",
   "theorems": [
    "Altro.Props.C83_inner",
    "Altro.Props.C83_bounded",
    "Altro.Props.C83_converges"
   ],
   "note": "Exact arithmetic; state and control bound checks off (`StepOptions`). The projection-Jacobian buffer of an inequality constraint must be zero off the diagonal, as it is after any history of operations on a new object. A concrete problem with control bounds is run in the kernel: three iterations."
  },
  {
   "property": "C84",
   "status": "proved",
   "theorems": [
    "Altro.Props.C84_solve",
    "Altro.Props.C84_multipliers",
    "Altro.Props.C84_converges"
   ],
   "note": "Exact arithmetic; state and control bound checks off (`StepOptions`). The tolerance of the inner solver is the one of the options throughout: the code has no schedule for it. The existence of multipliers is proved, not assumed. A concrete problem with control bounds is run in the kernel: three outer iterations with seven inner ones."
  },
  {
   "property": "C85",
   "status": "proved",
   "theorems": [
    "Altro.Props.C85_iteration",
    "Altro.Props.C85_count",
    "Altro.Props.C85_solve",
    "Altro.Props.C85_solved"
   ],
   "note": "Exact arithmetic. A failed line search can recur: it keeps the trajectory and raises the regularisation, so the number of iterations without change is bounded only by the limits of the options. A concrete nonlinear problem with a control bound is run in the kernel."
  },
  {
   "property": "C86",
   "status": "proved",
   "theorems": [
    "Altro.Props.C86_inner",
    "Altro.Props.C86_converges",
    "Altro.Props.C86_solves",
    "Altro.Props.C86_unicycle",
    "Altro.Props.C86_unicycle_default"
   ],
   "note": "Exact real arithmetic; if limits on states and controls are tested, they leave room for a size fixed in advance (C99). The bounds exist by compactness and are not computed. The unicycle instance uses the fourth order Runge-Kutta step with the Jacobian of C34 and the constraints of C38, C39; its costs are proved to be those of the calls of MakeProblem (C71, C09)."
  },
  {
   "property": "C87",
   "status": "partial",
   "theorems": [
    "Altro.Props.C87_clock",
    "Altro.Props.C87_default_step",
    "Altro.Props.C87_euler",
    "Altro.Props.C87_rk4",
    "Altro.Props.C87_detects",
    "Altro.Props.C87_hessian_euler",
    "Altro.Props.C87_hessian_counterexample",
    "Altro.Props.C87_continuous"
   ],
   "note": "The last sentence is false of the code (C87_hessian_counterexample): DiscretizedModel::Hessian writes nothing while HasHessian forwards the model's answer. While the step has its initial value zero both checks pass for every model (C87_default_step); once it is set the check finds the wrong stage times of C34 (C87_detects). Exact real arithmetic."
  },
  {
   "property": "C88",
   "status": "proved",
   "theorems": [
    "Altro.Props.C88_exact",
    "Altro.Props.C88_mono",
    "Altro.Props.C88_near_kkt",
    "Altro.Props.C88_solved",
    "Altro.Props.C88_solves",
    "Altro.Props.C88_unicycle"
   ],
   "note": "C88_near_kkt: quantifier order as in C86, constants before options. C88_exact: with zero errors the notion is that of C81. C88_solved for the status kSolved, C88_solves: such options exist, C88_unicycle: the unicycle example in both scenarios. Exact real arithmetic; state and control limits, if tested, leave room for a size fixed in advance (C99). The violation may stay above the tolerance (kMaxPenalty, kMaxOuterIterations), as it must for infeasible problems."
  },
  {
   "property": "C89",
   "status": "partial",
   "theorems": [
    "Altro.Props.C89_right_iff",
    "Altro.Props.C89_once_partial",
    "Altro.Props.C89_stdout_counterexample",
    "Altro.Props.C89_leak_counterexample",
    "Altro.Props.C89_exhaust_counterexample",
    "Altro.Props.C89_solver"
   ],
   "note": "The claim is false of the code. C89_right_iff is the exact condition: the timer opened no file, or opened one and the output was not changed afterwards. C89_solver: the same for sequences of solves (output to a file in no solve, or in the last only). C89_leak_counterexample: after k+1 solves with output to a file k handles stay open, for every k; C89_exhaust_counterexample: so a later solve throws; C89_stdout_counterexample: a file and then stdout makes the destructor close stdout."
  },
  {
   "property": "C90",
   "status": "partial",
   "theorems": [
    "Altro.Props.C90_count",
    "Altro.Props.C90_printed_partial",
    "Altro.Props.C90_inactive_counterexample",
    "Altro.Props.C90_solver",
    "Altro.Props.C90_description",
    "Altro.Props.C90_indent",
    "Altro.Props.C90_aligned_partial",
    "Altro.Props.C90_numbers_partial",
    "Altro.Props.C90_header_counterexample",
    "Altro.Props.C90_text"
   ],
   "note": "C90_count is the exact number of summaries; C90_inactive_counterexample: a timer that is deactivated before its end prints nothing, although it has recorded times (the documentation makes no such exception); C90_solver: what this means for solves. C90_aligned_partial, C90_description, C90_indent: rows of equal length for times of at most eight digits and percentages between -1 and 100. C90_header_counterexample: the header is longer than these rows for every table, because its title 'Time (us)' does not fit into its column of width eight."
  },
  {
   "property": "C91",
   "status": "proved",
   "theorems": [
    "Altro.Props.C91_cost_calls",
    "Altro.Props.C91_model_calls",
    "Altro.Props.C91_costs",
    "Altro.Props.C91_dynamics",
    "Altro.Props.C91_null",
    "Altro.Props.C91_read"
   ],
   "note": "Proved by induction over the vector. Index arithmetic is over the integers (int k = i + k_start does not overflow for vectors that fit). A rejected range ends the program (ALTRO_ASSERT), so no partly written problem is seen."
  },
  {
   "property": "C92",
   "status": "proved",
   "theorems": [
    "Altro.Props.C92_limit",
    "Altro.Props.C92_accumulation",
    "Altro.Props.C92_solves",
    "Altro.Props.C92_bound_needed"
   ],
   "note": "C92_limit: convergent sequences. C92_accumulation: bounded ones, by compactness. C92_solves: sequences of solver runs. C92_bound_needed: with unbounded multipliers (constraint u*u = 0) the limit of approximate points is not a KKT point. Exact real arithmetic."
  },
  {
   "property": "C93",
   "status": "proved",
   "theorems": [
    "Altro.Props.C93_gap",
    "Altro.Props.C93_near_optimal",
    "Altro.Props.C93_below",
    "Altro.Props.C93_distance",
    "Altro.Props.C93_distance_le",
    "Altro.Props.C93_unique",
    "Altro.Props.C93_solved"
   ],
   "note": "C93_gap is the general inequality, C93_near_optimal, C93_below, C93_distance, C93_distance_le, C93_unique follow; C93_solved applies it to results of the whole solver. Examples: Props/NearOptimalExamples.lean. Exact real arithmetic."
  },
  {
   "property": "C94",
   "status": "proved",
   "theorems": [
    "Altro.Props.C94_solves_convex",
    "Altro.Props.C94_solves",
    "Altro.Props.C94_kkt_saddle",
    "Altro.Props.C94_parabola"
   ],
   "note": "C94_solves_convex is the full statement; C94_solves shows that options within the bounds exist from any other options; C94_kkt_saddle turns a Karush-Kuhn-Tucker point into the required solution with multipliers; C94_parabola is a problem with a nonlinear constraint where five outer iterations suffice with the default tolerance, penalty and scaling. Exact real arithmetic; the bounds on the inner options are those of C86."
  },
  {
   "property": "C95",
   "status": "proved",
   "theorems": [
    "Altro.Props.C95_history",
    "Altro.Props.C95_copy",
    "Altro.Props.C95_moved",
    "Altro.Props.C95_pointer_follows",
    "Altro.Props.C95_no_leak"
   ],
   "note": "Refinement between a memory model of std::vector blocks and a specification without memory (Spec/TrajectoryValues.lean): C95_history, with consequences C95_copy, C95_moved, C95_pointer_follows, C95_no_leak. The solver models treat trajectories as values; this is the justification."
  },
  {
   "property": "C96",
   "status": "proved",
   "theorems": [
    "Altro.Props.C96_solution",
    "Altro.Props.C96_multipliers",
    "Altro.Props.C96_saddle_solution",
    "Altro.Props.C96_bound",
    "Altro.Props.C96_unique",
    "Altro.Props.C96_solves",
    "Altro.Props.C96_iterations",
    "Altro.Props.C96_parabola",
    "Altro.Props.C96_strict_needed",
    "Altro.Props.C96_with_equality"
   ],
   "note": "C96_solution (compactness), C96_multipliers (separation of convex sets), C96_saddle_solution, C96_bound, C96_unique, C96_solves, C96_iterations; C96_parabola is a problem where six outer iterations suffice by its data alone, C96_with_equality one with an equality constraint, C96_strict_needed a convex problem without strictly feasible trajectory whose solution has no multipliers."
  },
  {
   "property": "C97",
   "status": "proved",
   "theorems": [
    "Altro.Props.DoubleCon.C97_refines",
    "Altro.Props.DoubleCon.C97_violation",
    "Altro.Props.DoubleCon.C97_reported",
    "Altro.Props.DoubleCon.C97_minus_infinity",
    "Altro.Props.DoubleCon.C97_duals",
    "Altro.Props.DoubleCon.C97_knot_duals",
    "Altro.Props.DoubleCon.C97_dual_direction",
    "Altro.Props.DoubleCon.C97_feasible",
    "Altro.Props.DoubleCon.C97_cost",
    "Altro.Props.DoubleCon.C97_penalties",
    "Altro.Props.DoubleCon.C97_penalty_stuck",
    "Altro.Props.DoubleCon.C97_example",
    "Altro.Props.DoubleCon.C97_reported_example",
    "Altro.Props.DoubleCon.C97_penalties_example"
   ],
   "note": "C97_violation, C97_reported, C97_duals, C97_dual_direction, C97_feasible, C97_cost, C97_penalties; C97_refines ties the functions to those of C77; C97_minus_infinity and C97_penalty_stuck show that the hypotheses are needed; the examples are computed by the kernel. Eigen's reductions are taken to be sequential."
  },
  {
   "property": "C98",
   "status": "proved",
   "theorems": [
    "Altro.Props.C98_bounded",
    "Altro.Props.C98_accumulation",
    "Altro.Props.C98_solves",
    "Altro.Props.C98_licq",
    "Altro.Props.C98_mfcq",
    "Altro.Props.C98_exact",
    "Altro.Props.C98_unique",
    "Altro.Props.C98_converges",
    "Altro.Props.C98_strict",
    "Altro.Props.C98_qualification_needed"
   ],
   "note": "C98_bounded, C98_accumulation, C98_solves, C98_licq, C98_mfcq, C98_exact, C98_unique, C98_converges, C98_strict; C98_qualification_needed shows that the hypothesis is needed. Real arithmetic. Closes the gap left by C92, which assumes bounded multipliers."
  },
  {
   "property": "C99",
   "status": "proved",
   "theorems": [
    "Altro.Props.C99_same",
    "Altro.Props.C99_same_whole",
    "Altro.Props.C99_never",
    "Altro.Props.C99_large",
    "Altro.Props.C99_large_whole",
    "Altro.Props.C99_euclid",
    "Altro.Props.C99_smooth",
    "Altro.Props.C99_unicycle",
    "Altro.Props.C99_infinite",
    "Altro.Props.C99_small"
   ],
   "note": "C99_same, C99_same_whole, C99_never, C99_large, C99_large_whole (Props/Limits.lean); C99_infinite, C99_euclid, C99_smooth, C99_unicycle, C99_small (Props/LimitsExamples.lean). C86_inner, C86_converges, C86_solves, C88_near_kkt, C88_solves, C94_solves_convex, C94_solves, C96_solves and C96_iterations are stated with the test on or off. Part (c) in real arithmetic."
  },
  {
   "property": "C100",
   "status": "proved",
   "theorems": [
    "Altro.Props.C100_newton",
    "Altro.Props.C100_converges",
    "Altro.Props.C100_quadratic",
    "Altro.Props.C100_exact",
    "Altro.Props.C100_default"
   ],
   "note": "C100_newton, C100_converges, C100_quadratic, C100_exact, C100_default (Props/Newton.lean); Props/NewtonExamples.lean has a problem with a quartic objective and an active penalty. In real arithmetic; affine dynamics; the test of states and controls off, or on with large limits (C99)."
  },
  {
   "property": "C101",
   "status": "proved",
   "theorems": [
    "Altro.Props.C101_step",
    "Altro.Props.C101_solve",
    "Altro.Props.C101_digits",
    "Altro.Props.C101_converges"
   ],
   "note": "C101_step, C101_solve, C101_digits, C101_converges (Props/ALRate.lean), with a solve whose penalties stay constant. C79 and C80 bound the violation by |lambda*|/rho only. Exact arithmetic, inner solves exact (proved for these problems in C80)."
  },
  {
   "property": "C102",
   "status": "proved",
   "theorems": [
    "Altro.Props.C102_built",
    "Altro.Props.C102_linear_quadratic",
    "Altro.Props.C102_reachable",
    "Altro.Props.C102_solves",
    "Altro.Props.C102_unconstrained",
    "Altro.Props.C102_default_met",
    "Altro.Props.C102_default"
   ],
   "note": "C102_built, C102_linear_quadratic, C102_reachable, C102_solves, C102_unconstrained, C102_default_met, C102_default (Props/TripleExample.lean). Uses C35, C80, C96. The options of (d) (penalty, tolerances, limits) exist but are not the defaults; real arithmetic. The reference controls are a parameter because MakeProblem passes an uninitialised vector."
  },
  {
   "property": "C103",
   "status": "partial",
   "theorems": [
    "Altro.Props.C103_initial",
    "Altro.Props.C103_solver",
    "Altro.Props.C103_final_time",
    "Altro.Props.C103_made",
    "Altro.Props.C103_again",
    "Altro.Props.C103_order_partial",
    "Altro.Props.C103_order_counterexample",
    "Altro.Props.C103_uniTraj"
   ],
   "note": "C103_initial, C103_solver, C103_made, C103_again, C103_uniTraj, C103_order_partial, C103_order_counterexample (Props/ExampleSolvers.lean). (c) is false: InitialTrajectory reads fields that MakeProblem assigns, so with the obstacles a trajectory made before the problem has steps of 0.03 s instead of 0.05 s and the controls of the other scenario (C103_order_counterexample); it holds if the trajectory is made after the problem with nothing in between (C103_order_partial). States in real arithmetic; returning the solver from the function is C75."
  },
  {
   "property": "C104",
   "status": "proved",
   "theorems": [
    "Altro.Props.C104_convex",
    "Altro.Props.C104_solved",
    "Altro.Props.C104_exact",
    "Altro.Props.C104_solve",
    "Altro.Props.C104_repeat"
   ],
   "note": "C104_convex, C104_solved, C104_exact, C104_solve, C104_repeat (Props/WarmStart.lean). Convex problems: exact inner solver, one penalty and one scaling for all constraints, multipliers of inequalities nonpositive. In (c) the inner solver is ILQR.solve itself; if the constraints are dependent, the multipliers meant are those that differ from the starting ones by differences of constraint values. initial_penalty must be positive: otherwise Solve keeps the penalties too."
  },
  {
   "property": "C105",
   "status": "proved",
   "theorems": [
    "Altro.Props.C105_error_bound",
    "Altro.Props.C105_isolated",
    "Altro.Props.C105_rate",
    "Altro.Props.C105_solved",
    "Altro.Props.C105_run",
    "Altro.Props.C105_sharp"
   ],
   "note": "C105_error_bound, C105_isolated, C105_rate, C105_sharp, C105_solved, C105_run (Props/Regular.lean, Props/RegularExamples.lean). That the inner solves end within r of the solution is an assumption on the run: from an arbitrary start the inner solver can converge to another stationary point. One penalty and one scaling for all constraints; exact arithmetic; kappa and r are shown to exist, not computed."
  },
  {
   "property": "C106",
   "status": "proved",
   "theorems": [
    "Altro.Props.C106_regular",
    "Altro.Props.C106_rate"
   ],
   "note": "C106_regular, C106_rate (Props/ConvexRate.lean). One penalty and one scaling for all constraints, multipliers reset at the start; exact arithmetic; kappa and rho0 are shown to exist, not computed."
  },
  {
   "property": "C107",
   "status": "proved",
   "theorems": [
    "Altro.Props.C107_sum",
    "Altro.Props.C107_finite",
    "Altro.Props.C107_orders",
    "Altro.Props.C107_total",
    "Altro.Props.C107_solve",
    "Altro.Props.C107_solve_nonneg",
    "Altro.Props.C107_accepts",
    "Altro.Props.C107_accepted",
    "Altro.Props.C107_orders_differ"
   ],
   "note": "C107_sum, C107_finite, C107_orders, C107_total, C107_solve, C107_solve_nonneg, C107_accepts, C107_accepted (Props/DoubleSum.lean). The cost of one knot point is what the cost function returns; its own rounding is not part of the claim. The order of the solver model is left to right."
  },
  {
   "property": "C108",
   "status": "proved",
   "theorems": [
    "Altro.Props.C108_rk4",
    "Altro.Props.C108_euler",
    "Altro.Props.C108_solve",
    "Altro.Props.C108_rk4_sharp",
    "Altro.Props.C108_euler_sharp",
    "Altro.Props.C108_euler_not_second",
    "Altro.Props.C108_unicycle"
   ],
   "note": "C108_rk4, C108_euler, C108_solve, C108_rk4_sharp, C108_euler_sharp, C108_euler_not_second, C108_unicycle (Props/IntegrationOrder.lean). Exact arithmetic; times and steps are real numbers (float in the code). That a motion exists and is bounded is assumed, since smooth dynamics can escape in finite time; the unicycle driving a circle is given as a case."
  },
  {
   "property": "C109",
   "status": "proved",
   "theorems": [
    "Altro.Props.C109_ieee",
    "Altro.Props.C109_exact",
    "Altro.Props.C109_shadow",
    "Altro.Props.C109_shadow_euler",
    "Altro.Props.C109_motion",
    "Altro.Props.C109_solve",
    "Altro.Props.C109_times"
   ],
   "note": "C109_ieee, C109_exact, C109_shadow, C109_shadow_euler, C109_motion, C109_solve, C109_times (Props/FloatIntegration.lean). Overflow is left out (the states are assumed bounded), and so is contraction of operations to FMA."
  },
  {
   "property": "C110",
   "status": "proved",
   "theorems": [
    "Altro.Props.C110_derivative",
    "Altro.Props.C110_slope_convex",
    "Altro.Props.C110_line_search",
    "Altro.Props.C110_same",
    "Altro.Props.C110_identity",
    "Altro.Props.C110_exact",
    "Altro.Props.C110_step",
    "Altro.Props.C110_near_optimal",
    "Altro.Props.C110_convex",
    "Altro.Props.C110_slope",
    "Altro.Props.C110_regularised",
    "Altro.Props.C110_problem",
    "Altro.Props.C110_backward_pass"
   ],
   "note": "C110_same, C110_identity, C110_exact, C110_step, C110_near_optimal, C110_convex, C110_slope, C110_regularised, C110_problem, C110_backward_pass (Props/InexactGains.lean). Rounding of the other operations of the sweep is left out."
  },
  {
   "property": "C111",
   "status": "proved",
   "theorems": [
    "Altro.Props.C111_factor",
    "Altro.Props.C111_semidefinite",
    "Altro.Props.C111_success",
    "Altro.Props.C111_success_trace",
    "Altro.Props.C111_residual",
    "Altro.Props.C111_exact",
    "Altro.Props.C111_gains",
    "Altro.Props.C111_near_optimal",
    "Altro.Props.C111_problem",
    "Altro.Props.C111_no_stop",
    "Altro.Props.C111_size",
    "Altro.Props.C111_delta",
    "Altro.Props.C111_descent",
    "Altro.Props.C111_ff_zero",
    "Altro.Props.C111_stationary",
    "Altro.Props.C111_announced",
    "Altro.Props.C111_slope",
    "Altro.Props.C111_improves",
    "Altro.Props.C111_third",
    "Altro.Props.C111_line_search",
    "Altro.Props.C111_ratio",
    "Altro.Props.C111_line_search_nonconvex"
   ],
   "note": "C111_factor, C111_residual, C111_semidefinite, C111_success, C111_success_trace, C111_size, C111_exact, C111_gains, C111_near_optimal, C111_problem, C111_no_stop (Props/FloatCholesky.lean). Overflow, underflow and the rounding of the other operations of the sweep are left out."
  },
  {
   "property": "C112",
   "status": "proved",
   "theorems": [
    "Altro.Props.C112_double",
    "Altro.Props.C112_nx",
    "Altro.Props.C112_factor",
    "Altro.Props.C112_first",
    "Altro.Props.C112_solution",
    "Altro.Props.C112_rhs",
    "Altro.Props.C112_upper",
    "Altro.Props.C112_regularize",
    "Altro.Props.C112_hessian",
    "Altro.Props.C112_previous",
    "Altro.Props.C112_gradient",
    "Altro.Props.C112_delta",
    "Altro.Props.C112_state",
    "Altro.Props.C112_sweep",
    "Altro.Props.C112_announced",
    "Altro.Props.C112_rejected",
    "Altro.Props.C112_iteration",
    "Altro.Props.C112_stuck",
    "Altro.Props.C112_outer",
    "Altro.Props.C112_exact"
   ],
   "note": "C112_double, C112_nx, C112_factor, C112_first, C112_solution, C112_rhs, C112_upper, C112_regularize, C112_hessian, C112_previous, C112_gradient, C112_delta, C112_state, C112_sweep, C112_announced, C112_rejected, C112_iteration, C112_stuck, C112_outer, C112_exact (Props/ArithKP.lean). The sums are added from the left; with blocks of 32 columns Eigen reads the same entries in another order."
  },
  {
   "property": "C113",
   "status": "proved",
   "theorems": [
    "Altro.Props.C113_double",
    "Altro.Props.C113_bound",
    "Altro.Props.C113_unconstrained",
    "Altro.Props.C113_outer",
    "Altro.Props.C113_default",
    "Altro.Props.C113_final",
    "Altro.Props.C113_outcomes",
    "Altro.Props.C113_infeasible"
   ],
   "note": "C113_bound, C113_unconstrained, C113_outer, C113_default, C113_final, C113_outcomes, C113_infeasible (Props/PenaltyLimit.lean), exact arithmetic; C113_double (Props/DoublePenalties.lean), double arithmetic, cost objects known by their penalties."
  },
  {
   "property": "C114",
   "status": "proved",
   "theorems": [
    "Altro.LoggerMove.C114_keys",
    "Altro.LoggerMove.C114_found",
    "Altro.LoggerMove.C114_not_copied",
    "Altro.LoggerMove.C114_values",
    "Altro.LoggerMove.C114_copy",
    "Altro.LoggerMove.C114_copy_dangles"
   ],
   "note": "C114_values, C114_not_copied, C114_copy, C114_copy_dangles (Props/LoggerMove.lean), C114_keys, C114_found (Props/LoggerKeys.lean). Nothing in the repository copies a logger; statistics objects, which contain one, can be copied. Copy assignment is not modelled."
  },
  {
   "property": "C115",
   "status": "proved",
   "theorems": [
    "Altro.StatsMove.C115_snapshot",
    "Altro.StatsMove.C115_snapshot_copies",
    "Altro.StatsMove.C115_others",
    "Altro.StatsMove.C115_writes_original",
    "Altro.StatsMove.C115_dangles"
   ],
   "note": "C115_snapshot, C115_snapshot_copies (any number of copies), C115_others, C115_writes_original, C115_dangles (Props/StatsCopy.lean). The logger inside is C114."
  }
 ]
}
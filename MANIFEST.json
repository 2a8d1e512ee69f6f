{
 "claims": [
  {
   "property": "C01",
   "status": "proved",
   "theorems": [
    "Hylaa.C01_from_box",
    "Hylaa.C01_from_box_refuses",
    "Hylaa.C01_from_box_accepts"
   ],
   "note": ""
  },
  {
   "property": "C02",
   "status": "proved",
   "theorems": [
    "Hylaa.C02_from_zonotope",
    "Hylaa.C02_from_zonotope_accepts"
   ],
   "note": ""
  },
  {
   "property": "C03",
   "status": "partial",
   "theorems": [
    "Hylaa.C03_from_constraints_exact",
    "Hylaa.C03_from_constraints_feasible_partial",
    "Hylaa.C03_refuses_feasible",
    "Hylaa.C03_accepts_infeasible"
   ],
   "note": "Exact meaning proved for every accepted call (C03_from_constraints_exact). The full claim 'accepted iff the set is non-empty' is false: the feasibility pre-check treats every row as <= (C03_refuses_feasible, C03_accepts_infeasible are the counterexamples, proved for every honest/complete solver). _partial: it holds when every row is of type <=."
  },
  {
   "property": "C04",
   "status": "proved",
   "theorems": [
    "Hylaa.C04_set_basis_matrix"
   ],
   "note": ""
  },
  {
   "property": "C05",
   "status": "proved",
   "theorems": [
    "Hylaa.C05_add_input_effects",
    "Hylaa.C05_add_input_effects_lgg"
   ],
   "note": ""
  },
  {
   "property": "C06",
   "status": "proved",
   "theorems": [
    "Hylaa.C06_time_elapse",
    "Hylaa.C06_one_step_is_flow"
   ],
   "note": ""
  },
  {
   "property": "C07",
   "status": "proved",
   "theorems": [
    "Hylaa.C07_steps_reachable",
    "Hylaa.C07_continuous_time"
   ],
   "note": ""
  },
  {
   "property": "C08",
   "status": "proved",
   "theorems": [
    "Hylaa.C08_add_init_constraint"
   ],
   "note": ""
  },
  {
   "property": "C09",
   "status": "proved",
   "theorems": [
    "Hylaa.C09_try_replace_init_constraint"
   ],
   "note": ""
  },
  {
   "property": "C10",
   "status": "proved",
   "theorems": [
    "Hylaa.C10_check_intersection"
   ],
   "note": ""
  },
  {
   "property": "C11",
   "status": "proved",
   "theorems": [
    "Hylaa.C11_guard_intersection",
    "Hylaa.C11_guard_intersection_accepts"
   ],
   "note": ""
  },
  {
   "property": "C12",
   "status": "proved",
   "theorems": [
    "Hylaa.C12_mink_without_constraints_accepted",
    "Hylaa.C12_mink_without_constraints_raises",
    "Hylaa.C12_reset_minkowski",
    "Hylaa.C12_reset",
    "Hylaa.C12_reset_identity"
   ],
   "note": ""
  },
  {
   "property": "C13",
   "status": "proved",
   "theorems": [
    "Hylaa.C13_aggregate",
    "Hylaa.C13_accepts"
   ],
   "note": ""
  },
  {
   "property": "C14",
   "status": "proved",
   "theorems": [
    "Hylaa.C14_accepts",
    "Hylaa.C14_aggregate_chull"
   ],
   "note": ""
  },
  {
   "property": "C15",
   "status": "proved",
   "theorems": [
    "Hylaa.C15_accepts",
    "Hylaa.C15_minkowski_sum"
   ],
   "note": ""
  },
  {
   "property": "C16",
   "status": "partial",
   "theorems": [
    "Hylaa.C16_bloat_exact",
    "Hylaa.C16_set_basis_forgets_bloat"
   ],
   "note": "bloat represents exactly the Minkowski sum with the box (C16_bloat_exact). The second half ('later transformations keep the bloat') is false: set_basis_matrix rewrites the row block and forgets the bloat (C16_set_basis_forgets_bloat)."
  },
  {
   "property": "C17",
   "status": "proved",
   "theorems": [
    "Hylaa.C17_from_input_constraints",
    "Hylaa.C17_accepts"
   ],
   "note": ""
  },
  {
   "property": "C18",
   "status": "partial",
   "theorems": [
    "Hylaa.C18_answers",
    "Hylaa.C18_radius_partial",
    "Hylaa.C18_radius_fresh_partial",
    "Hylaa.C18_radius_wrong"
   ],
   "note": "True for instances whose current-time block starts at column 0 / fresh instances; false in general since the code reads LP column n instead of cur_vars_offset+n (C18_radius_wrong)."
  },
  {
   "property": "C19",
   "status": "proved",
   "theorems": [
    "Hylaa.C19_box_center"
   ],
   "note": ""
  },
  {
   "property": "C20",
   "status": "proved",
   "theorems": [
    "Hylaa.C20_is_point_in_lpi"
   ],
   "note": ""
  },
  {
   "property": "C21",
   "status": "proved",
   "theorems": [
    "Hylaa.C21_duplicate_index_overwrites",
    "Hylaa.C21_objective_is_last_direction"
   ],
   "note": ""
  },
  {
   "property": "C22",
   "status": "proved",
   "theorems": [
    "Hylaa.C22_minimize_decides"
   ],
   "note": ""
  },
  {
   "property": "C23",
   "status": "proved",
   "theorems": [
    "Hylaa.C23_untouched_unchanged",
    "Hylaa.C23_clone_equal",
    "Hylaa.C23_mutations_cover"
   ],
   "note": ""
  },
  {
   "property": "C24",
   "status": "partial",
   "theorems": [
    "Hylaa.C24_rebuild_partial",
    "Hylaa.C24_lower_rows_lost",
    "Hylaa.C24_read_back"
   ],
   "note": "get_full_constraints/get_types/get_rhs rebuild exactly the original constraints when no row is a >= row; for a GLP_LO row get_rhs returns the (meaningless) upper bound: C24_lower_rows_lost is the proved counterexample."
  },
  {
   "property": "C25",
   "status": "proved",
   "theorems": [
    "Hylaa.C25_csr_refuses",
    "Hylaa.C25_csc_refuses",
    "Hylaa.C25_csr_block",
    "Hylaa.C25_csc_block"
   ],
   "note": ""
  },
  {
   "property": "C26",
   "status": "proved",
   "theorems": [
    "Hylaa.C26_construction",
    "Hylaa.C26_duplicate_refused",
    "Hylaa.C26_reset_fits",
    "Hylaa.C26_mink_unchecked",
    "Hylaa.C26_square",
    "Hylaa.C26_shapes",
    "Hylaa.C26_dynamics_twice",
    "Hylaa.C26_reset_unchecked"
   ],
   "note": ""
  },
  {
   "property": "C27",
   "status": "proved",
   "theorems": [
    "Hylaa.C27_point_in_invariant",
    "Hylaa.C27_set_invariant",
    "Hylaa.C27_set_invariant_accepts",
    "Hylaa.C27_negate",
    "Hylaa.C27_guard_point"
   ],
   "note": ""
  },
  {
   "property": "C28",
   "status": "proved",
   "theorems": [
    "Hylaa.C28_strengthening",
    "Hylaa.C28_conditions_added",
    "Hylaa.C28_condition_left_out",
    "Hylaa.C28_strengthening_raises"
   ],
   "note": ""
  },
  {
   "property": "C29",
   "status": "proved",
   "theorems": [
    "Hylaa.C29_tt_affine",
    "Hylaa.C29_not_affine_with_inputs"
   ],
   "note": ""
  },
  {
   "property": "C30",
   "status": "proved",
   "theorems": [
    "Hylaa.C30_num_steps"
   ],
   "note": ""
  },
  {
   "property": "C31",
   "status": "proved",
   "theorems": [
    "Hylaa.C31_extract",
    "Hylaa.C31_flat_accepted",
    "Hylaa.C31_dynamics",
    "Hylaa.C31_reset",
    "Hylaa.C31_condition",
    "Hylaa.C31_nonlinear_refused"
   ],
   "note": ""
  },
  {
   "property": "C32",
   "status": "partial",
   "theorems": [
    "Hylaa.C32_script_partial",
    "Hylaa.C32_trajectories_partial",
    "Hylaa.C32_error_init_unreported",
    "Hylaa.C32_boxes_partial",
    "Hylaa.C32_safe_verdict_tt_partial",
    "Hylaa.C32_safe_verdict_partial",
    "Hylaa.C32_false_without_same_path",
    "Hylaa.C32_message_false_without_deaggregation",
    "Hylaa.C32_stale_row_with_chull",
    "Hylaa.C32_stale_flag_unsound"
   ],
   "note": "Proved for every strategy, solver, automaton of the class, number of rounds (C32_safe_verdict_tt_partial), and end to end: from any script of API calls and boxes, through setup_ha, to the trajectories of the automaton as written (C32_script_partial, C32_trajectories_partial). Missing: guards and invariants are looked at after each step only (discrete time, as in the tool). The excluded shapes are those for which the claim is refuted: C42_unsound_with_inputs, C43_skips_reachable_states_with_inputs, C44_drops_staying_states, C32_stale_flag_unsound, C32_false_without_same_path, C32_message_false_without_deaggregation. With an approximation model and invariants the claim is false (C32_stale_row_with_chull)."
  },
  {
   "property": "C33",
   "status": "partial",
   "theorems": [
    "Hylaa.C33_concrete_error_partial",
    "Hylaa.C33_boxes_partial",
    "Hylaa.C33_false_with_deaggregation",
    "Hylaa.C33_needs_minkOk",
    "Hylaa.C33_script_partial",
    "Hylaa.C33_trajectories_partial"
   ],
   "note": "Proved without deaggregation for every strategy, with urgent/tt/zero-dynamics options. With deaggregation it is false: C33_false_with_deaggregation runs the model to a 'reachable' verdict for which no run within the time bound exists. End to end: C33_script_partial, C33_trajectories_partial."
  },
  {
   "property": "C34",
   "status": "partial",
   "theorems": [
    "Hylaa.C34_time_bound_partial",
    "Hylaa.C34_terminates_partial",
    "Hylaa.C34_endless_run_never_ends",
    "Hylaa.C34_urgent_cycle_never_ends",
    "Hylaa.C34_terminates_one_path",
    "Hylaa.C34_terminates_all_partial",
    "Hylaa.C34_time_bound_false_with_deaggregation"
   ],
   "note": "Termination proved for every automaton, solver and initial sets, with any strategy that aggregates only operations with the same path (deaggregating or not: C34_terminates_one_path, a Dershowitz-Manna measure on the tree of nodes), and for every strategy without deaggregation (C34_terminates_partial); with urgent transitions given a rank that decreases along transitions (without it, if infinitely many jumps fit within the time bound, the analysis never ends with a safe verdict: C34_endless_run_never_ends). The time bound is proved without deaggregation and refuted with it (C34_time_bound_false_with_deaggregation). Missing: termination of deaggregation with require_same_path=False."
  },
  {
   "property": "C35",
   "status": "proved",
   "theorems": [
    "Hylaa.C35_counterexample",
    "Hylaa.C35_with_invariants",
    "Hylaa.C35_boxes",
    "Hylaa.C35_never_reported_with_approximation",
    "Hylaa.C35_raises_with_approximation"
   ],
   "note": ""
  },
  {
   "property": "C36",
   "status": "proved",
   "theorems": [
    "Hylaa.C36_pop",
    "Hylaa.C36_no_loss"
   ],
   "note": ""
  },
  {
   "property": "C37",
   "status": "proved",
   "theorems": [
    "Hylaa.C37_highest_score",
    "Hylaa.C37_order",
    "Hylaa.C37_items"
   ],
   "note": ""
  },
  {
   "property": "C38",
   "status": "proved",
   "theorems": [
    "Hylaa.C38_step_interval",
    "Hylaa.C38_contains_parts"
   ],
   "note": ""
  },
  {
   "property": "C39",
   "status": "proved",
   "theorems": [
    "Hylaa.C39_split"
   ],
   "note": ""
  },
  {
   "property": "C40",
   "status": "proved",
   "theorems": [
    "Hylaa.C40_concrete_lineage"
   ],
   "note": ""
  },
  {
   "property": "C41",
   "status": "proved",
   "theorems": [
    "Hylaa.C41_frontier",
    "Hylaa.C41_loses_states_without_same_path"
   ],
   "note": "Within the class of C32 (require_same_path). Outside it refuted: C41_loses_states_without_same_path."
  },
  {
   "property": "C42",
   "status": "partial",
   "theorems": [
    "Hylaa.C42_invariant_partial",
    "Hylaa.C42_unsound_with_inputs"
   ],
   "note": "Proved for modes without inputs (C42_invariant_partial); refuted with inputs by C42_unsound_with_inputs."
  },
  {
   "property": "C43",
   "status": "partial",
   "theorems": [
    "Hylaa.C43_zero_dynamics_partial",
    "Hylaa.C43_skips_reachable_states_with_inputs"
   ],
   "note": "Proved for modes without inputs; refuted with inputs by C43_skips_reachable_states_with_inputs."
  },
  {
   "property": "C44",
   "status": "partial",
   "theorems": [
    "Hylaa.C44_tt_stop_partial",
    "Hylaa.C44_drops_staying_states"
   ],
   "note": "Proved when the tt variable moves towards the guard by more than the tolerance per step; refuted in general by C44_drops_staying_states; the second half is refuted by C32_stale_flag_unsound."
  },
  {
   "property": "C45",
   "status": "proved",
   "theorems": [
    "Hylaa.C45_sims_are_trajectories",
    "Hylaa.C45_pops_earliest",
    "Hylaa.C45_init_in_box",
    "Hylaa.C45_shared_flag"
   ],
   "note": ""
  },
  {
   "property": "C46",
   "status": "proved",
   "theorems": [
    "Hylaa.C46_after_reset",
    "Hylaa.C46_stack_discipline",
    "Hylaa.C46_nested",
    "Hylaa.C46_mismatch"
   ],
   "note": ""
  },
  {
   "property": "C47",
   "status": "proved",
   "theorems": [
    "Hylaa.C47_set",
    "Hylaa.C47_frozen_never_grows",
    "Hylaa.C47_unfreeze"
   ],
   "note": ""
  },
  {
   "property": "C48",
   "status": "proved",
   "theorems": [
    "Hylaa.C48_accounting",
    "Hylaa.C48_fail_stop"
   ],
   "note": ""
  },
  {
   "property": "C49",
   "status": "partial",
   "theorems": [
    "Hylaa.C49_removes_one_partial",
    "Hylaa.C49_single_plot_partial",
    "Hylaa.C49_kept_in_second_subplot"
   ],
   "note": "Proved for one subplot; with two subplots refuted by C49_kept_in_second_subplot."
  },
  {
   "property": "C50",
   "status": "proved",
   "theorems": [
    "Hylaa.C50_time_on_x",
    "Hylaa.C50_time_on_y",
    "Hylaa.C50_vertices_in_set",
    "Hylaa.C50_point_xy",
    "Hylaa.C50_ydim_zero_wrong",
    "Hylaa.C50_direction_raises",
    "Hylaa.C50_both_none_raises",
    "Hylaa.C50_time_plot_exists",
    "Hylaa.C50_plot_exists"
   ],
   "note": ""
  },
  {
   "property": "C51",
   "status": "partial",
   "theorems": [
    "Hylaa.C51_check_result",
    "Hylaa.C51_check_raises",
    "Hylaa.C51_groups",
    "Hylaa.C51_check_times",
    "Hylaa.C51_replay_partial",
    "Hylaa.C51_replay_spacing",
    "Hylaa.C51_one_step_not_replayed",
    "Hylaa.C51_replay_end_partial"
   ],
   "note": "Grouping, time stamps of check_trace and total duration proved; the replay's step spacing is wrong (C51_replay_spacing) and one-step groups are not replayed (C51_one_step_not_replayed)."
  },
  {
   "property": "C52",
   "status": "proved",
   "theorems": [
    "Hylaa.C52_set_inputs",
    "Hylaa.C52_accepts_iff",
    "Hylaa.C52_fixed_is_fixed",
    "Hylaa.C52_scaled_constant_accepted"
   ],
   "note": ""
  },
  {
   "property": "C53",
   "status": "partial",
   "theorems": [
    "Hylaa.C53_lgg_covers_partial",
    "Hylaa.C53_lgg_accepts",
    "Hylaa.C53_lgg_formula",
    "Hylaa.C53_small_norm_missed"
   ],
   "note": "Proved over the reals with the true matrix exponential for every integrable input signal, any number of single steps, for sets built by from_constraints (C53_lgg_covers_partial), never refused within the asserted range of beta (C53_lgg_accepts), and the set is exactly the LGG formula (C53_lgg_formula). The rest of the claim is false: for 0 < |A| < 1e-7 states are missed (C53_small_norm_missed), and for sets entered by a transition too (C57_missed_after_transition). Not covered: modes with invariants, steps with a target."
  },
  {
   "property": "C54",
   "status": "proved",
   "theorems": [
    "Hylaa.C54_chull",
    "Hylaa.C54_steps",
    "Hylaa.C54_accepts"
   ],
   "note": "C54_chull: superset of the hull always, equal for non-empty bounded sets; C54_steps for later steps; C54_accepts: never refused."
  },
  {
   "property": "C55",
   "status": "proved",
   "theorems": [
    "Hylaa.C55_orthonormal",
    "Hylaa.C55_bounds",
    "Hylaa.C55_follows_dynamics",
    "Hylaa.C55_first_direction",
    "Hylaa.C55_can_finish"
   ],
   "note": "Exact arithmetic, sqrt and random vectors as parameters (C55_orthonormal, C55_bounds, C55_follows_dynamics, C55_first_direction); C55_can_finish: after any first N draws, draws in [0,1) exist that complete it."
  },
  {
   "property": "C56",
   "status": "partial",
   "theorems": [
    "Hylaa.C56_orthogonal_partial",
    "Hylaa.C56_independent_partial",
    "Hylaa.C56_can_finish",
    "Hylaa.C56_loses_direction",
    "Hylaa.C56_overwrites_argument",
    "Hylaa.C56_arnoldi_dims",
    "Hylaa.C56_through_reset_partial"
   ],
   "note": "False in general: the last direction may be overwritten with zero (C56_loses_direction) and the argument is changed (C56_overwrites_argument). Proved: right number of rows, pairwise orthogonal, each of length 1 or 0 (C56_orthogonal_partial); the full claim for matrices whose first dims rows are independent (C56_independent_partial); C56_can_finish."
  },
  {
   "property": "C57",
   "status": "partial",
   "theorems": [
    "Hylaa.C57_first_interval_unchecked",
    "Hylaa.C57_missed_after_transition",
    "Hylaa.C57_continuous_time_partial",
    "Hylaa.C57_script_partial"
   ],
   "note": "Proved over the reals with the true matrix exponential for automata whose transitions lead to error modes, from boxes (C57_continuous_time_partial, met by the run decay_safe) and from the user's script (C57_script_partial), for every integrable input and every time from the first step on, or from time 0 with process_urgent_guards. Without it the claim is false: C57_first_interval_unchecked; it is also false after a transition between ordinary modes (C57_missed_after_transition). Not covered: modes with inputs and an invariant (C42), 0 < |A| <= 1e-7 (C53_small_norm_missed)."
  },
  {
   "property": "C58",
   "status": "partial",
   "theorems": [
    "Hylaa.C58_accurate_partial",
    "Hylaa.C58_far_sets_collapse"
   ],
   "note": "Proved for exact arithmetic in Qhull and the SVD (stated as Geom.HonestHull and Geom.HonestOrth) and when np.allclose identifies only points of the set closer than the accuracy; far from the origin that hypothesis fails and the claim is false (C58_far_sets_collapse)."
  },
  {
   "property": "C59",
   "status": "partial",
   "theorems": [
    "Hylaa.C59_drawn_partial",
    "Hylaa.C59_stored_partial",
    "Hylaa.C59_small_sets_stay",
    "Hylaa.C59_reserved_name_vanishes",
    "Hylaa.C59_mixed_subplots_raise",
    "Hylaa.C59_no_plot_keeps_aggregated"
   ],
   "note": "Proved for sets drawn as polygons (more than two vertices), ordinary mode names, each set plotted once per step and plotting switched on; the stored data for one subplot. Outside these cases the claim is false: C59_small_sets_stay, C59_reserved_name_vanishes, C59_mixed_subplots_raise, C59_no_plot_keeps_aggregated."
  },
  {
   "property": "C60",
   "status": "partial",
   "theorems": [
    "Hylaa.C60_axes_partial",
    "Hylaa.C60_total",
    "Hylaa.C60_flat_plot_never_extended"
   ],
   "note": "The bounding box is exact for all histories; that the axes show it is proved when the box is not flat, and is false for flat plots (C60_flat_plot_never_extended)."
  },
  {
   "property": "C61",
   "status": "partial",
   "theorems": [
    "Hylaa.C61_current_partial",
    "Hylaa.C61_plotting_transparent",
    "Hylaa.C61_time_plot_partial",
    "Hylaa.C61_stale_after_invariant"
   ],
   "note": "Proved for all histories of verts and step calls. Not true after intersect_invariant or an approximation model, which do not drop the cached vertices (C61_stale_after_invariant)."
  },
  {
   "property": "C62",
   "status": "partial",
   "theorems": [
    "Hylaa.C62_lines_are_trajectories_partial",
    "Hylaa.C62_every_simulation_drawn_partial",
    "Hylaa.C62_y_axis_zero_wrong",
    "Hylaa.C62_strides_partial",
    "Hylaa.C62_one_step_never_raises",
    "Hylaa.C62_stride_raises"
   ],
   "note": "Proved for subplots whose axes are time or a coordinate. With coordinate 0 on the y axis the code plots the time instead (C62_y_axis_zero_wrong), so the full claim is false. With several steps per frame (C62_strides_partial) a line shows some of the states; the animation may then raise (C62_stride_raises)."
  },
  {
   "property": "C63",
   "status": "partial",
   "theorems": [
    "Hylaa.C63_window_same_steps",
    "Hylaa.C63_window_same_result_partial",
    "Hylaa.C63_video_same_result",
    "Hylaa.C63_result_unique",
    "Hylaa.C63_video_finishes",
    "Hylaa.C63_window_can_finish",
    "Hylaa.C63_stride_zero_never_ends",
    "Hylaa.C63_same_verdict_partial",
    "Hylaa.C63_safe_in_window_partial",
    "Hylaa.C63_closed_window_reports_safe"
   ],
   "note": "Proved for every display and every history, provided draw_stride is positive (C63_stride_zero_never_ends) and the window is not closed before the analysis has finished: then run() reports \"System is safe\" for an unfinished analysis (C63_closed_window_reports_safe). Drawing is assumed not to change the computation (C61; the solver warm-start is not modelled here)."
  },
  {
   "property": "C64",
   "status": "proved",
   "theorems": [
    "Hylaa.C64_each_timer_right",
    "Hylaa.C64_full_name",
    "Hylaa.C64_descendants",
    "Hylaa.C64_inside_at_most",
    "Hylaa.C64_everything_took_time",
    "Hylaa.C64_report",
    "Hylaa.C64_report_needs_closed",
    "Hylaa.C64_report_needs_time"
   ],
   "note": ""
  },
  {
   "property": "C65",
   "status": "partial",
   "theorems": [
    "Hylaa.C65_found_contains",
    "Hylaa.C65_inside_found",
    "Hylaa.C65_click_unique_partial",
    "Hylaa.C65_click_on_empty_raises",
    "Hylaa.C65_verts_list_is_first_object",
    "Hylaa.C65_first_not_top"
   ],
   "note": "The answered object contains the point and a point strictly inside some shape is always found (proved); a click under which only one shape lies reports it (proved). Where shapes overlap the one plotted first is answered, not the top one (C65_first_not_top); get_verts_list answers the first object, not the vertex lists (C65_verts_list_is_first_object): the full claim is false."
  },
  {
   "property": "C66",
   "status": "partial",
   "theorems": [
    "Hylaa.C66_keeps_colour",
    "Hylaa.C66_different_modes_partial",
    "Hylaa.C66_lighter",
    "Hylaa.C66_colours",
    "Hylaa.C66_never_raises",
    "Hylaa.C66_colours_again",
    "Hylaa.C66_two_modes_one_colour"
   ],
   "note": "A plotted colour is the name's red, green, blue in the table. 'Different modes, different colours' holds if the colours used have one name each; matplotlib has two names for some, which is exhibited by C66_two_modes_one_colour."
  },
  {
   "property": "C67",
   "status": "partial",
   "theorems": [
    "Hylaa.C67_picture_partial",
    "Hylaa.C67_recursion",
    "Hylaa.C67_label_bridges_gap",
    "Hylaa.C67_incomplete_loses_edges",
    "Hylaa.C67_error_not_drawn",
    "Hylaa.C67_always_drawn",
    "Hylaa.C67_steps_in_order",
    "Hylaa.C67_transitions_drawn",
    "Hylaa.C67_no_assertion",
    "Hylaa.C67_runs_partial"
   ],
   "note": "Proved for pictures that are drawn at all, the roots being different and nobody's children. A label [a, b] may contain steps at which the transition was not taken (C67_label_bridges_gap); the last transitions of an incomplete node are missing (C67_incomplete_loses_edges), and so is a transition into an error mode (C67_error_not_drawn). At every moment of every run without deaggregation the hypotheses hold, all existing nodes are drawn, each once (C67_runs_partial), and no assertion of the drawing code fails (C67_no_assertion); operations are recorded in the order of their steps (C67_steps_in_order), so every transition of a complete node is on an edge whose label contains its step (C67_transitions_drawn). In those runs the drawing code never fails on the tree of a finished or unfinished run: a picture always exists (C67_always_drawn)."
  }
 ]
}
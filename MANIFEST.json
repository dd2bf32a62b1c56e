{
 "claims": [
  {
   "property": "C01",
   "status": "proved",
   "theorems": [
    "Verif.C01_inner_terminates"
   ],
   "note": "Any arithmetic. Assumes only that the optimiser counter starts at 0 and grows by 1 per update."
  },
  {
   "property": "C02",
   "status": "proved",
   "theorems": [
    "Verif.C84_inner_run",
    "Verif.C02_inner_early_stop",
    "Verif.C02_average_improvement",
    "Verif.C02_stopping_rule"
   ],
   "note": "Any arithmetic for the stopping reason; reals for the telescoped average."
  },
  {
   "property": "C03",
   "status": "partial",
   "theorems": [
    "Verif.C03_negative_start_stops_partial",
    "Verif.C03_shift_dependence_violated_partial"
   ],
   "note": "False of the code. Proved: the exact rule by which a negative start value stops after one iteration, and a witness pair differing by a constant."
  },
  {
   "property": "C04",
   "status": "proved",
   "theorems": [
    "Verif.C04_outer_terminates"
   ],
   "note": "Any arithmetic."
  },
  {
   "property": "C05",
   "status": "partial",
   "theorems": [
    "Verif.C05_budget_exceeded_partial",
    "Verif.C05_total_exceeds_violated_partial"
   ],
   "note": "False of the code. The cap is exceeded whenever the budget is used up; exact total maxiter_tot+1 for maxiter_inner=1. The true bound is C04."
  },
  {
   "property": "C06",
   "status": "proved",
   "theorems": [
    "Verif.C06_multipliers_nonneg"
   ],
   "note": "Real arithmetic, hard mask (the one used by quadcoil)."
  },
  {
   "property": "C07",
   "status": "proved",
   "theorems": [
    "Verif.C07_penalty_monotone_bounded"
   ],
   "note": "Real arithmetic."
  },
  {
   "property": "C08",
   "status": "proved",
   "theorems": [
    "Verif.C08_reported_changes",
    "Verif.C08_status_consistent"
   ],
   "note": "Any arithmetic."
  },
  {
   "property": "C09",
   "status": "partial",
   "theorems": [
    "Verif.C09_value_is_previous_partial",
    "Verif.C09_stale_value_violated_partial"
   ],
   "note": "False of the code: the value returned belongs to the point before the last update."
  },
  {
   "property": "C10",
   "status": "proved",
   "theorems": [
    "Verif.C10_loop_exit_any",
    "Verif.C10_loop_exit_converged"
   ],
   "note": "The first theorem holds for any arithmetic, the second for reals."
  },
  {
   "property": "C11",
   "status": "proved",
   "theorems": [
    "Verif.C11_augLag_derivative",
    "Verif.C11_kkt_stationarity"
   ],
   "note": ""
  },
  {
   "property": "C12",
   "status": "proved",
   "theorems": [
    "Verif.C12_fixed_point_iff"
   ],
   "note": ""
  },
  {
   "property": "C13",
   "status": "proved",
   "theorems": [
    "Verif.C13_scaling_invisible"
   ],
   "note": ""
  },
  {
   "property": "C14",
   "status": "proved",
   "theorems": [
    "Verif.C14_masks_bracket",
    "Verif.C14_multiplier_signs",
    "Verif.C14_delta_normalized"
   ],
   "note": ""
  },
  {
   "property": "C15",
   "status": "proved",
   "theorems": [
    "Verif.C15_blocks_match_requests",
    "Verif.C15_feasible_iff_requests_hold"
   ],
   "note": ""
  },
  {
   "property": "C16",
   "status": "partial",
   "theorems": [
    "Verif.C16_auto_unit_positive_partial",
    "Verif.C16_auto_unit_negative_flips_partial",
    "Verif.C16_violated_partial"
   ],
   "note": "False of the code: a negative automatic unit flips the inequality. Proved exactly when it is right and when it is flipped."
  },
  {
   "property": "C17",
   "status": "proved",
   "theorems": [
    "Verif.C17_approx_conservative"
   ],
   "note": ""
  },
  {
   "property": "C18",
   "status": "partial",
   "theorems": [
    "Verif.C18_exact_field_rejected_partial",
    "Verif.C18_far_field_accepted_partial"
   ],
   "note": "False of the code near the boundary."
  },
  {
   "property": "C19",
   "status": "proved",
   "theorems": [
    "Verif.C19_slack_max_exact",
    "Verif.C19_slack_max_initial"
   ],
   "note": ""
  },
  {
   "property": "C20",
   "status": "proved",
   "theorems": [
    "Verif.C20_slack_square_exact",
    "Verif.C20_slack_fourth_exact",
    "Verif.C20_slack_fourth_initial"
   ],
   "note": ""
  },
  {
   "property": "C21",
   "status": "partial",
   "theorems": [
    "Verif.C21_approx_max_limit_partial",
    "Verif.C21_approx_square_limit_partial",
    "Verif.C21_approx_fourth_limit_partial",
    "Verif.C21_violated_partial",
    "Verif.C21_approx_l1_limit_partial",
    "Verif.C21_approx_l1_vector_limit_partial"
   ],
   "note": "False of the code for squared and fourth power norms unless unit = 1; the true limits are proved."
  },
  {
   "property": "C22",
   "status": "proved",
   "theorems": [
    "Verif.C22_slack_l1_exact",
    "Verif.C22_slack_l1_initial"
   ],
   "note": "Scalar fields; vector fields are C74."
  },
  {
   "property": "C23",
   "status": "partial",
   "theorems": [
    "Verif.C23_shared_slack_feasible_set_partial",
    "Verif.C23_no_coupling_when_units_ordered_partial",
    "Verif.C23_violated_partial"
   ],
   "note": "False of the code when the units differ in the wrong direction."
  },
  {
   "property": "C24",
   "status": "proved",
   "theorems": [
    "Verif.C24_objective_is_weighted_sum",
    "Verif.C24_single_objective"
   ],
   "note": ""
  },
  {
   "property": "C25",
   "status": "proved",
   "theorems": [
    "Verif.C25_constraints_rejected_iff_illegal",
    "Verif.C25_objectives_rejected_iff_illegal",
    "Verif.C25_single_objective_rejected_iff_illegal"
   ],
   "note": ""
  },
  {
   "property": "C26",
   "status": "proved",
   "theorems": [
    "Verif.C26_aux_names_disjoint",
    "Verif.C26_failure_reserves_nothing",
    "Verif.C26_fresh_names_accepted"
   ],
   "note": ""
  },
  {
   "property": "C27",
   "status": "proved",
   "theorems": [
    "Verif.C27_merge_concatenates",
    "Verif.C27_merge_refused",
    "Verif.C27_merge_bounds",
    "Verif.C27_parsed_constraints_mergeable"
   ],
   "note": ""
  },
  {
   "property": "C28",
   "status": "proved",
   "theorems": [
    "Verif.C28_accepted_iff_documented"
   ],
   "note": ""
  },
  {
   "property": "C29",
   "status": "proved",
   "theorems": [
    "Verif.C29_gradient_keys"
   ],
   "note": ""
  },
  {
   "property": "C30",
   "status": "partial",
   "theorems": [
    "Verif.C30_gradient_mode_reports_all_partial",
    "Verif.C30_value_only_reports_others_partial",
    "Verif.C30_value_only_drops_f_obj_violated_partial"
   ],
   "note": "False of the code: value_only drops the metric f_obj. True in gradient mode and for all other metrics."
  },
  {
   "property": "C31",
   "status": "proved",
   "theorems": [
    "Verif.C31_max_lse_bounds",
    "Verif.C31_max_lse_bound_attained",
    "Verif.C31_abs_lse_bounds",
    "Verif.C31_abs_lse_even",
    "Verif.C31_linf_lse_bounds",
    "Verif.C31_max_lse_monotone",
    "Verif.C31_max_lse_shift"
   ],
   "note": ""
  },
  {
   "property": "C32",
   "status": "proved",
   "theorems": [
    "Verif.C32_rotation_invariant"
   ],
   "note": ""
  },
  {
   "property": "C33",
   "status": "proved",
   "theorems": [
    "Verif.C33_bwd_is_adjoint"
   ],
   "note": ""
  },
  {
   "property": "C34",
   "status": "proved",
   "theorems": [
    "Verif.C34_reported_is_total_derivative"
   ],
   "note": ""
  },
  {
   "property": "C35",
   "status": "proved",
   "theorems": [
    "Verif.C35_choice_has_smaller_residual",
    "Verif.C35_exact_if_either_exact",
    "Verif.C35_preconditioned_keeps_solutions",
    "Verif.C35_preconditioned_equivalent"
   ],
   "note": ""
  },
  {
   "property": "C36",
   "status": "proved",
   "theorems": [
    "Verif.C36_ndofs_eq_table_length",
    "Verif.C36_each_mode_once",
    "Verif.C36_nonsymmetric_layout"
   ],
   "note": ""
  },
  {
   "property": "C37",
   "status": "proved",
   "theorems": [
    "Verif.C37_mode_counts",
    "Verif.C37_modes_complete",
    "Verif.C37_minor_radius_index",
    "Verif.C37_dof_count"
   ],
   "note": ""
  },
  {
   "property": "C38",
   "status": "proved",
   "theorems": [
    "Verif.C38_position_stellsym",
    "Verif.C38_position_general",
    "Verif.C38_gammadash_phi",
    "Verif.C38_gammadash_theta",
    "Verif.C38_rz_derivatives"
   ],
   "note": ""
  },
  {
   "property": "C39",
   "status": "proved",
   "theorems": [
    "Verif.C39_field_period",
    "Verif.C39_theta_periodic",
    "Verif.C39_stellarator_symmetry",
    "Verif.C39_position_symmetry"
   ],
   "note": ""
  },
  {
   "property": "C40",
   "status": "proved",
   "theorems": [
    "Verif.C40_potential_stellsym",
    "Verif.C40_potential_general",
    "Verif.C40_operators_exact"
   ],
   "note": ""
  },
  {
   "property": "C41",
   "status": "proved",
   "theorems": [
    "Verif.C41_current_is_normal_cross_gradient",
    "Verif.C41_gradient_exists",
    "Verif.C41_tangential",
    "Verif.C41_affine",
    "Verif.C41_divergence_free"
   ],
   "note": ""
  },
  {
   "property": "C42",
   "status": "proved",
   "theorems": [
    "Verif.C42_reciprocal_basis",
    "Verif.C42_unit_normal"
   ],
   "note": ""
  },
  {
   "property": "C43",
   "status": "proved",
   "theorems": [
    "Verif.C43_helpers_exact",
    "Verif.C43_K_derivatives",
    "Verif.C43_K_dot_grad_K",
    "Verif.C43_curve_exists"
   ],
   "note": ""
  },
  {
   "property": "C44",
   "status": "proved",
   "theorems": [
    "Verif.C44_net_currents",
    "Verif.C44_K_theta"
   ],
   "note": ""
  },
  {
   "property": "C45",
   "status": "proved",
   "theorems": [
    "Verif.C45_surface_roundtrip",
    "Verif.C45_surface_rebuild",
    "Verif.C45_params_roundtrip",
    "Verif.C45_eval_surface_rebuilt",
    "Verif.C45_surface_missing_child",
    "Verif.C45_surface_missing_setting",
    "Verif.C45_params_missing_child",
    "Verif.C45_params_missing_setting"
   ],
   "note": ""
  },
  {
   "property": "C46",
   "status": "proved",
   "theorems": [
    "Verif.C46_one_period_times_nfp",
    "Verif.C46_default_grid",
    "Verif.C46_default_theta",
    "Verif.C46_f_K_is_full_torus"
   ],
   "note": ""
  },
  {
   "property": "C47",
   "status": "proved",
   "theorems": [
    "Verif.C47_field_linear",
    "Verif.C47_field_affine",
    "Verif.C47_objectives_nonneg",
    "Verif.C47_objectives_convex",
    "Verif.C47_objectives_quadratic",
    "Verif.C47_normalised"
   ],
   "note": ""
  },
  {
   "property": "C48",
   "status": "proved",
   "theorems": [
    "Verif.C48_field_rotates",
    "Verif.C48_normal_field_periodic"
   ],
   "note": ""
  },
  {
   "property": "C49",
   "status": "proved",
   "theorems": [
    "Verif.C49_intersection_iff",
    "Verif.C49_symmetric"
   ],
   "note": ""
  },
  {
   "property": "C50",
   "status": "proved",
   "theorems": [
    "Verif.C50_weights_zero_or_one",
    "Verif.C50_weight_parity",
    "Verif.C50_simple_polygon_kept"
   ],
   "note": ""
  },
  {
   "property": "C51",
   "status": "proved",
   "theorems": [
    "Verif.C51_offset_distance",
    "Verif.C51_neighbours_on_surface",
    "Verif.C51_rows",
    "Verif.C51_cylindrical_coordinates"
   ],
   "note": ""
  },
  {
   "property": "C52",
   "status": "proved",
   "theorems": [
    "Verif.C52_regularisation_weights",
    "Verif.C52_fit_is_minimiser",
    "Verif.C52_fit_exists_unique",
    "Verif.C52_zero_weight_irrelevant",
    "Verif.C52_exact_data"
   ],
   "note": ""
  },
  {
   "property": "C53",
   "status": "proved",
   "theorems": [
    "Verif.C53_angles_valid"
   ],
   "note": ""
  },
  {
   "property": "C54",
   "status": "partial",
   "theorems": [
    "Verif.C54_usable_iff_partial",
    "Verif.C54_mixed_symmetry_violated_partial",
    "Verif.C54_mixed_symmetry_rejected_partial",
    "Verif.C54_winding_stellsym_ignored_partial"
   ],
   "note": "False of the code when stellsym and plasma_stellsym differ."
  },
  {
   "property": "C55",
   "status": "proved",
   "theorems": [
    "Verif.C55_net_current_of_coils",
    "Verif.C55_total_current",
    "Verif.C55_levels_stellsym",
    "Verif.C55_levels_general",
    "Verif.C55_current_per_level",
    "Verif.C55_padded_potential"
   ],
   "note": ""
  },
  {
   "property": "C56",
   "status": "proved",
   "theorems": [
    "Verif.C56_recovers_coefficients",
    "Verif.C56_too_few_samples",
    "Verif.C56_least_squares"
   ],
   "note": ""
  },
  {
   "property": "C57",
   "status": "proved",
   "theorems": [
    "Verif.C57_forwarded_keywords",
    "Verif.C57_value_only_refused",
    "Verif.C57_tangent_formula",
    "Verif.C57_tangent_linear",
    "Verif.C57_no_missing_entry",
    "Verif.C57_missing_entry"
   ],
   "note": ""
  },
  {
   "property": "C58",
   "status": "proved",
   "theorems": [
    "Verif.C58_to_desc_blocks",
    "Verif.C58_same_surface",
    "Verif.C58_roundtrip",
    "Verif.C58_import"
   ],
   "note": "DESC conversions of coefficient arrays are a parameter assumed to be inverse to each other."
  },
  {
   "property": "C59",
   "status": "proved",
   "theorems": [
    "Verif.C59_removes_exactly_the_coincident_source",
    "Verif.C59_agrees_with_distance_exclusion",
    "Verif.C59_sources_are_the_grid"
   ],
   "note": ""
  },
  {
   "property": "C60",
   "status": "partial",
   "theorems": [
    "Verif.C60_returned_infeasible_violated_partial"
   ],
   "note": "False of the code: the last solve is not checked. The true part (loop exit) is C10."
  },
  {
   "property": "C61",
   "status": "partial",
   "theorems": [
    "Verif.C61_violated_partial",
    "Verif.C61_initial_feasible_iff_partial"
   ],
   "note": "False of the code: the exact condition for feasibility of the initial slack is proved."
  },
  {
   "property": "C62",
   "status": "partial",
   "theorems": [
    "Verif.C62_midplane_components_partial",
    "Verif.C62_offplane_components_partial",
    "Verif.C62_length_not_preserved_violated_partial"
   ],
   "note": "False of the code off the midplane; the exact factor is proved."
  },
  {
   "property": "C63",
   "status": "partial",
   "theorems": [
    "Verif.C63_reported_weight_gradient_zero_violated_partial",
    "Verif.C63_true_weight_gradient_partial",
    "Verif.C63_witness_violated_partial"
   ],
   "note": "False of the code: the reported weight gradient of f_obj is always 0."
  },
  {
   "property": "C64",
   "status": "partial",
   "theorems": [
    "Verif.C64_first_vertex_dropped_violated_partial",
    "Verif.C64_first_vertex_kept_iff_partial"
   ],
   "note": "False of the code when an odd number of edges cross others."
  },
  {
   "property": "C65",
   "status": "partial",
   "theorems": [
    "Verif.C65_rectangle_violated_partial",
    "Verif.C65_angle_formula_partial",
    "Verif.C65_arc_length_iff_partial"
   ],
   "note": "False of the code: edges 1..j are summed instead of 0..j-1."
  },
  {
   "property": "C66",
   "status": "partial",
   "theorems": [
    "Verif.C66_K_theta_fails_violated_partial",
    "Verif.C66_K_theta_available_iff_partial"
   ],
   "note": "False of the code without stellarator symmetry."
  },
  {
   "property": "C67",
   "status": "partial",
   "theorems": [
    "Verif.C67_finite_element_violated_partial"
   ],
   "note": "False of the code: AttributeError for every object."
  },
  {
   "property": "C68",
   "status": "partial",
   "theorems": [
    "Verif.C68_violated_partial",
    "Verif.C68_highest_degree_partial",
    "Verif.C68_default_order_partial"
   ],
   "note": "False of the code: the cosine coefficient of degree order is doubled, the sine coefficient lost."
  },
  {
   "property": "C69",
   "status": "partial",
   "theorems": [
    "Verif.C69_to_desc_violated_partial",
    "Verif.C69_simsopt_net_current_violated_partial",
    "Verif.C69_focus_mode_count_violated_partial",
    "Verif.C69_focus_rows_partial"
   ],
   "note": "All three parts are false of the code."
  },
  {
   "property": "C70",
   "status": "partial",
   "theorems": [
    "Verif.C70_dipole_auto_unit_zero_violated_partial",
    "Verif.C70_axisymmetric_violated_partial"
   ],
   "note": "False of the code for all five current potential objectives, and for f_B in axisymmetric vacuum problems with the default grids."
  },
  {
   "property": "C71",
   "status": "proved",
   "theorems": [
    "Verif.C71_huber_error_bound"
   ],
   "note": ""
  },
  {
   "property": "C72",
   "status": "partial",
   "theorems": [
    "Verif.C72_huber_negative_violated_partial",
    "Verif.C72_huber_not_even_violated_partial"
   ],
   "note": "False of the code."
  },
  {
   "property": "C73",
   "status": "proved",
   "theorems": [
    "Verif.C73_flatten_roundtrip",
    "Verif.C73_start_is_phi_init"
   ],
   "note": ""
  },
  {
   "property": "C74",
   "status": "partial",
   "theorems": [
    "Verif.C74_slack_l1_vector_fails_violated_partial",
    "Verif.C74_default_grid_violated_partial",
    "Verif.C74_approx_l1_evaluable_partial"
   ],
   "note": "False of the code for vector fields."
  },
  {
   "property": "C75",
   "status": "partial",
   "theorems": [
    "Verif.C75_unconstrained_iff_partial",
    "Verif.C75_merge_never_unconstrained_violated_partial"
   ],
   "note": "False of the code with merge_constraints=True; true without it."
  },
  {
   "property": "C76",
   "status": "partial",
   "theorems": [
    "Verif.C76_frames_mixed_violated_partial",
    "Verif.C76_single_frame_partial"
   ],
   "note": "False of the code: frames of source and evaluation point are mixed. True when all points share one toroidal angle and lie in the midplane."
  },
  {
   "property": "C77",
   "status": "proved",
   "theorems": [
    "Verif.C77_field_flips",
    "Verif.C77_normal_field_odd"
   ],
   "note": ""
  },
  {
   "property": "C78",
   "status": "partial",
   "theorems": [
    "Verif.C78_single_point_integral_zero_violated_partial",
    "Verif.C78_witness_violated_partial"
   ],
   "note": "False of the code: with one toroidal point the step is 0."
  },
  {
   "property": "C79",
   "status": "proved",
   "theorems": [
    "Verif.C79_coil_on_surface_stellsym",
    "Verif.C79_coil_on_surface_general"
   ],
   "note": ""
  },
  {
   "property": "C80",
   "status": "partial",
   "theorems": [
    "Verif.C80_quadcoil_desc_violated_partial",
    "Verif.C80_save_focus_violated_partial"
   ],
   "note": "False of the code."
  },
  {
   "property": "C81",
   "status": "proved",
   "theorems": [
    "Verif.C81_one_unit_per_name",
    "Verif.C81_succeeds"
   ],
   "note": ""
  },
  {
   "property": "C82",
   "status": "partial",
   "theorems": [
    "Verif.C82_primal_keys_violated_partial",
    "Verif.C82_primal_values_partial"
   ],
   "note": "False of the code if f_obj is among the metrics."
  },
  {
   "property": "C83",
   "status": "partial",
   "theorems": [
    "Verif.C83_zero_current_violated_partial",
    "Verif.C83_nonzero_current_partial"
   ],
   "note": "False of the code without net current."
  },
  {
   "property": "C84",
   "status": "proved",
   "theorems": [
    "Verif.C84_inner_run"
   ],
   "note": ""
  },
  {
   "property": "C85",
   "status": "proved",
   "theorems": [
    "Verif.C85_last_solve_tight"
   ],
   "note": ""
  },
  {
   "property": "C86",
   "status": "proved",
   "theorems": [
    "Verif.C86_force_perpendicular"
   ],
   "note": ""
  },
  {
   "property": "C87",
   "status": "proved",
   "theorems": [
    "Verif.C87_pointwise",
    "Verif.C87_lorentz_force",
    "Verif.C87_summand",
    "Verif.C87_winding_weights"
   ],
   "note": ""
  },
  {
   "property": "C88",
   "status": "partial",
   "theorems": [
    "Verif.C88_defect_partial",
    "Verif.C88_error_bound_partial",
    "Verif.C88_same_lagrangian_partial",
    "Verif.C88_violated_partial"
   ],
   "note": "False: the multipliers are held fixed while differentiating. The exact error is computed, it is bounded by a constant over the root of the penalty weight."
  },
  {
   "property": "C89",
   "status": "proved",
   "theorems": [
    "Verif.C89_solutions_kept",
    "Verif.C89_equivalent",
    "Verif.C89_scales"
   ],
   "note": ""
  },
  {
   "property": "C90",
   "status": "partial",
   "theorems": [
    "Verif.C90_minor_radius_partial",
    "Verif.C90_zero_iff_partial",
    "Verif.C90_unit_zero_violated_partial",
    "Verif.C90_no_field_violated_partial"
   ],
   "note": "False: the scale is 0 exactly in the listed cases."
  },
  {
   "property": "C91",
   "status": "proved",
   "theorems": [
    "Verif.C91_max_value",
    "Verif.C91_fourth_value",
    "Verif.C91_l1_value",
    "Verif.C91_huber_value",
    "Verif.C91_f_Phi_value",
    "Verif.C91_dipole_values"
   ],
   "note": ""
  },
  {
   "property": "C92",
   "status": "proved",
   "theorems": [
    "Verif.C92_unknown_name_value_error",
    "Verif.C92_wrong_role_value_error",
    "Verif.C92_norms_one_sided",
    "Verif.C92_objectives_one_sided",
    "Verif.C92_objectives_scalar"
   ],
   "note": ""
  },
  {
   "property": "C93",
   "status": "proved",
   "theorems": [
    "Verif.C93_import_succeeds",
    "Verif.C93_every_name_found",
    "Verif.C93_aux_names",
    "Verif.C93_dipole_aux_names",
    "Verif.C93_slack_sound",
    "Verif.C93_dipole_slack_sound"
   ],
   "note": ""
  },
  {
   "property": "C94",
   "status": "proved",
   "theorems": [
    "Verif.C94_union_lookup",
    "Verif.C94_union_nodup",
    "Verif.C94_every_aux_initialised",
    "Verif.C94_join_feasible"
   ],
   "note": ""
  },
  {
   "property": "C95",
   "status": "partial",
   "theorems": [
    "Verif.C95_law_partial",
    "Verif.C95_units_partial",
    "Verif.C95_reference_partial",
    "Verif.C95_K_theta_violated_partial",
    "Verif.C95_force_violated_partial"
   ],
   "note": "False for four of the 27 quantities (K_theta and the three force norms); the exact law is proved for all."
  },
  {
   "property": "C96",
   "status": "partial",
   "theorems": [
    "Verif.C96_never_loads_violated_partial",
    "Verif.C96_further_names_violated_partial"
   ],
   "note": "False: three undefined names."
  },
  {
   "property": "C97",
   "status": "partial",
   "theorems": [
    "Verif.C97_violated_partial"
   ],
   "note": "False: the module is not imported by the package and its unit uses an undefined name."
  },
  {
   "property": "C98",
   "status": "proved",
   "theorems": [
    "Verif.C98_normal_formula",
    "Verif.C98_points_outwards",
    "Verif.C98_circular_torus",
    "Verif.C98_two_points_degenerate"
   ],
   "note": ""
  },
  {
   "property": "C99",
   "status": "partial",
   "theorems": [
    "Verif.C99_marks_hull_partial",
    "Verif.C99_succeeds_partial",
    "Verif.C99_lowest_lost_violated_partial",
    "Verif.C99_square_violated_partial"
   ],
   "note": "Proved when one point is strictly lowest; false whenever another point is as low: the first hull vertex is lost."
  },
  {
   "property": "C100",
   "status": "partial",
   "theorems": [
    "Verif.C100_rules_partial",
    "Verif.C100_hull_violated_partial"
   ],
   "note": "False: the rule hull fails in every call."
  },
  {
   "property": "C101",
   "status": "partial",
   "theorems": [
    "Verif.C101_angle_partial",
    "Verif.C101_wrong_centre_violated_partial",
    "Verif.C101_not_symmetric_fails_violated_partial",
    "Verif.C101_no_interpolation_violated_partial",
    "Verif.C101_fine_interpolation_violated_partial",
    "Verif.C101_centre_exists_partial"
   ],
   "note": "False for every row but the first."
  },
  {
   "property": "C102",
   "status": "partial",
   "theorems": [
    "Verif.C102_grids_partial",
    "Verif.C102_field_partial",
    "Verif.C102_field_violated_partial",
    "Verif.C102_name"
   ],
   "note": "False for gamma_and_field_to_vtk on grids that are not square."
  },
  {
   "property": "C103",
   "status": "partial",
   "theorems": [
    "Verif.C103_inequality_partial",
    "Verif.C103_equality_violated_partial",
    "Verif.C103_value_partial"
   ],
   "note": "False: equalities fail with IndexError."
  },
  {
   "property": "C104",
   "status": "partial",
   "theorems": [
    "Verif.C104_window_partial",
    "Verif.C104_zero_violated_partial",
    "Verif.C104_other_coefficients"
   ],
   "note": "False for a coefficient that is 0."
  },
  {
   "property": "C105",
   "status": "partial",
   "theorems": [
    "Verif.C105_certificate",
    "Verif.C105_certificate_max",
    "Verif.C105_certificate_square",
    "Verif.C105_certificate_fourth",
    "Verif.C105_certificate_max_approx",
    "Verif.C105_certificate_square_approx_partial",
    "Verif.C105_certificate_l1"
   ],
   "note": "The squared maximum in approx mode only with unit 1 (otherwise the unit is applied before squaring, see C21); equalities of fields in approx mode are replaced by their smooth maximum and excluded."
  },
  {
   "property": "C106",
   "status": "proved",
   "theorems": [
    "Verif.C106_whole_problem_exact",
    "Verif.exactQuantity_none",
    "Verif.exactQuantity_c2",
    "Verif.exactQuantity_linf",
    "Verif.exactQuantity_linf_square",
    "Verif.exactQuantity_linf4",
    "Verif.exactQuantity_l1"
   ],
   "note": "Units given as numbers. The Huber quantity, whose slack form is smoothed, is outside the hypotheses."
  },
  {
   "property": "C107",
   "status": "proved",
   "theorems": [
    "Verif.C107_flat_iff_user",
    "Verif.C107_flat_minimiser_solves",
    "Verif.C107_user_minimiser_reached",
    "Verif.C107_reported_solution",
    "Verif.C107_flat_order"
   ],
   "note": ""
  },
  {
   "property": "C108",
   "status": "proved",
   "theorems": [
    "Verif.C108_gap_bound",
    "Verif.C108_converged_is_minimiser"
   ],
   "note": "The scale is that of the last inner solve, which the status does not report."
  },
  {
   "property": "C109",
   "status": "proved",
   "theorems": [
    "Verif.C109_biot_savart_sum",
    "Verif.C109_divergence_free",
    "Verif.C109_field_limit"
   ],
   "note": ""
  },
  {
   "property": "C110",
   "status": "proved",
   "theorems": [
    "Verif.C110_integrate_limit",
    "Verif.C110_area_limit",
    "Verif.C110_f_K_limit",
    "Verif.C110_f_B_limit"
   ],
   "note": ""
  },
  {
   "property": "C111",
   "status": "proved",
   "theorems": [
    "Verif.C111_step",
    "Verif.C111_multiplier_bound",
    "Verif.C111_violation_rate"
   ],
   "note": "Convex differentiable objective and inequality functions, affine equality functions. The unconditional bound keeps the errors of the inner solves."
  },
  {
   "property": "C112",
   "status": "proved",
   "theorems": [
    "Verif.C112_surface_attributes",
    "Verif.C112_surface_iff",
    "Verif.C112_params_attributes",
    "Verif.C112_params_iff",
    "Verif.C112_eval_one_period"
   ],
   "note": ""
  },
  {
   "property": "C113",
   "status": "proved",
   "theorems": [
    "Verif.C113_current_determines_potential",
    "Verif.C113_current_determines_coefficients",
    "Verif.C113_minimiser_exists",
    "Verif.C113_minimiser_current",
    "Verif.C113_unique_minimiser"
   ],
   "note": ""
  },
  {
   "property": "C114",
   "status": "partial",
   "theorems": [
    "Verif.C114_flat_direction_partial",
    "Verif.C114_minimisers_partial",
    "Verif.C114_not_unique_partial"
   ],
   "note": "False of the code: without stellarator symmetry the constant mode of the potential is an unknown that no current depends on."
  },
  {
   "property": "C115",
   "status": "proved",
   "theorems": [
    "Verif.C115_objectives_reflect",
    "Verif.C115_minimiser_symmetric",
    "Verif.C115_symmetric_problem",
    "Verif.C115_user_reflect",
    "Verif.C115_user_no_gain",
    "Verif.C115_user_sines",
    "Verif.C115_user_solutions",
    "Verif.C115_user_all"
   ],
   "note": ""
  },
  {
   "property": "C116",
   "status": "proved",
   "theorems": [
    "Verif.C116_superposition",
    "Verif.C116_scaling",
    "Verif.C116_value"
   ],
   "note": ""
  },
  {
   "property": "C117",
   "status": "proved",
   "theorems": [
    "Verif.C117_embedding",
    "Verif.C117_refinement"
   ],
   "note": ""
  },
  {
   "property": "C118",
   "status": "proved",
   "theorems": [
    "Verif.C118_f_B_limit",
    "Verif.C118_minimisers_converge"
   ],
   "note": ""
  },
  {
   "property": "C119",
   "status": "proved",
   "theorems": [
    "Verif.C119_monotone",
    "Verif.C119_raise_one"
   ],
   "note": ""
  },
  {
   "property": "C120",
   "status": "partial",
   "theorems": [
    "Verif.C120_copies",
    "Verif.C120_found_once_partial",
    "Verif.C120_found_three_times_violated_partial",
    "Verif.C120_missed_violated_partial"
   ],
   "note": "False without net current (every contour is found three times) and for strongly modulated potentials (contours are missed)."
  },
  {
   "property": "C121",
   "status": "proved",
   "theorems": [
    "Verif.C121_round_trip"
   ],
   "note": ""
  },
  {
   "property": "C122",
   "status": "partial",
   "theorems": [
    "Verif.C122_current_in_file_violated_partial",
    "Verif.C122_net_current_partial"
   ],
   "note": "False: the file contains only the contours of a half or one field period."
  },
  {
   "property": "C123",
   "status": "proved",
   "theorems": [
    "Verif.C123_default_order",
    "Verif.C123_given_order"
   ],
   "note": ""
  },
  {
   "property": "C124",
   "status": "partial",
   "theorems": [
    "Verif.C124_affine_partial",
    "Verif.C124_convex_partial",
    "Verif.C124_curvature_violated_partial",
    "Verif.C124_force_violated_partial",
    "Verif.C124_l1_force_violated_partial",
    "Verif.C124_curvature_components_violated_partial"
   ],
   "note": "Proved for 21 of the 27 quantities. False for the other six: the curvature, its maximum, and the maxima and the L1 norm of the force, each with a witness."
  },
  {
   "property": "C125",
   "status": "proved",
   "theorems": [
    "Verif.C125_exactly_one_solution"
   ],
   "note": ""
  },
  {
   "property": "C126",
   "status": "proved",
   "theorems": [
    "Verif.C126_quadratic_growth"
   ],
   "note": ""
  },
  {
   "property": "C127",
   "status": "proved",
   "theorems": [
    "Verif.C127_continuous_dependence",
    "Verif.C127_coefficients"
   ],
   "note": ""
  },
  {
   "property": "C128",
   "status": "partial",
   "theorems": [
    "Verif.C128_quantities_exact_partial",
    "Verif.C128_huber_violated_partial"
   ],
   "note": "Proved for 25 of the 27 quantities. False for f_huber_K, whose slack form is a smoothed value; the slack form of f_l1_force_cyl cannot be evaluated (C74)."
  },
  {
   "property": "C129",
   "status": "proved",
   "theorems": [
    "Verif.C129_solver_problem_has_one_potential"
   ],
   "note": ""
  },
  {
   "property": "C130",
   "status": "partial",
   "theorems": [
    "Verif.C130_smooth_convex_partial",
    "Verif.C130_max_current_violated_partial",
    "Verif.C130_l1_kink_violated_partial",
    "Verif.C134_huber_convex",
    "Verif.C134_huber_kink_exists_violated_partial"
   ],
   "note": "Proved for the affine and quadratic quantities and the maxima of the potential and the normal field, without smoothing and with auxiliary variables. False for f_max_K2 (not convex) and f_l1_Phi (convex with auxiliary variables, but not differentiable at the default start), and in slack mode f_huber_K (convex, not differentiable everywhere); the approx mode is C134."
  },
  {
   "property": "C131",
   "status": "proved",
   "theorems": [
    "Verif.C131_setup_succeeds_iff_legal"
   ],
   "note": ""
  },
  {
   "property": "C132",
   "status": "partial",
   "theorems": [
    "Verif.C132_minimiser_is_saddle",
    "Verif.C132_multipliers_exist_partial",
    "Verif.C132_multiplier_size"
   ],
   "note": "Proved in general for convex problems with inequalities, and for calls with affine, quadratic and maximum quantities, without smoothing and with auxiliary variables. Not covered: f_l1_Phi, f_huber_K; the approx mode and merged constraints are covered by C136. Equality constraints are legal only for K_dot_grad_K, which is not convex."
  },
  {
   "property": "C133",
   "status": "partial",
   "theorems": [
    "Verif.C133_distance_bound_partial",
    "Verif.C133_converged_partial"
   ],
   "note": "Proved for the calls of C130 with inequalities on stellarator-symmetric resolving grids. The approx mode and merged constraints are covered by C136."
  },
  {
   "property": "C134",
   "status": "partial",
   "theorems": [
    "Verif.C134_approx_convex_partial",
    "Verif.C134_huber_violated_partial",
    "Verif.C134_huber_convex",
    "Verif.C134_huber_kink_violated_partial",
    "Verif.C134_huber_kink_exists_violated_partial"
   ],
   "note": "Proved for all convex quantities except f_huber_K. Its smoothed form is convex, but for every smoothing parameter and unit there is a torus on which it is not differentiable."
  },
  {
   "property": "C135",
   "status": "partial",
   "theorems": [
    "Verif.C135_approx_rate_partial"
   ],
   "note": "Proved for stellarator-symmetric resolving grids. f_max_Phi2 and f_max_Phi4 only with unit 1 because of the scaling of C21. Not covered: f_huber_K."
  },
  {
   "property": "C136",
   "status": "partial",
   "theorems": [
    "Verif.C136_approx_distance_partial"
   ],
   "note": "Same restrictions as C135: stellarator-symmetric resolving grids, f_max_Phi2 and f_max_Phi4 only with unit 1, no f_huber_K."
  },
  {
   "property": "C137",
   "status": "partial",
   "theorems": [
    "Verif.C137_inner_problem",
    "Verif.C137_outer_step",
    "Verif.C137_exact_inner",
    "Verif.C137_call_inner_partial"
   ],
   "note": "Proved in general for convex problems with a strongly convex objective, and for calls without auxiliary variables on stellarator-symmetric resolving grids. Does not hold in slack mode, where auxiliary variables enter linearly."
  },
  {
   "property": "C138",
   "status": "partial",
   "theorems": [
    "Verif.C138_unconstrained_distance_partial"
   ],
   "note": "Proved for smooth objectives on stellarator-symmetric resolving grids. Objectives with kinks (f_max_Phi, f_l1_Phi without smoothing) are not covered: the gradient at a kink says nothing."
  },
  {
   "property": "C139",
   "status": "partial",
   "theorems": [
    "Verif.C139_why_a_call_stops",
    "Verif.C139_gtol_last_ignored_violated_partial"
   ],
   "note": "Proved with gtol_inner in place of gtol_inner_last for calls without constraints; those ignore gtol_inner_last."
  },
  {
   "property": "C140",
   "status": "proved",
   "theorems": [
    "Verif.C140_setup_iff",
    "Verif.C140_accepted_iff",
    "Verif.C140_returned",
    "Verif.C140_accepted_returns",
    "Verif.C140_default_call",
    "Verif.C140_default_grids_resolve",
    "Verif.C140_standard_accepted",
    "Verif.C140_no_field_periods",
    "Verif.C140_ambiguous_surface",
    "Verif.C140_wrong_size",
    "Verif.C140_no_late_errors",
    "Verif.C140_unknown_metric",
    "Verif.C140_output_keys",
    "Verif.C140_gradient_keys"
   ],
   "note": "Sizes that only matter when an objective is traced, and a plasma field that JAX broadcasts, are not modelled."
  },
  {
   "property": "C141",
   "status": "proved",
   "theorems": [
    "Verif.C141_none_is_value_at_zero"
   ],
   "note": "For quantities with one value; None for an array stays."
  },
  {
   "property": "C142",
   "status": "partial",
   "theorems": [
    "Verif.C142_standard_call_partial",
    "Verif.C142_converged_partial"
   ],
   "note": "Proved for stellarator-symmetric potentials in real arithmetic. The distance is bounded by the reported gradient, which is small only if the run stopped because of it; without f_K there can be many best potentials."
  },
  {
   "property": "C143",
   "status": "partial",
   "theorems": [
    "Verif.C143_optimum_convex",
    "Verif.C143_optimum_monotone",
    "Verif.C143_prices",
    "Verif.C143_reported_multipliers",
    "Verif.C143_call_prices_partial",
    "Verif.C143_approx_prices_partial"
   ],
   "note": "The bound from the reported multipliers is proved for the calls of C130 on stellarator-symmetric resolving grids, and with one relief for all constraints. In approx mode, merged or not, it holds up to a multiple of the smoothing parameter; f_max_Phi2 and f_max_Phi4 there only with unit 1 (C21), and f_huber_K is left out."
  },
  {
   "property": "C144",
   "status": "partial",
   "theorems": [
    "Verif.C144_documented_defaults_partial",
    "Verif.C144_differences",
    "Verif.C144_documented_static_partial",
    "Verif.C144_undocumented",
    "Verif.C144_normalised_objective",
    "Verif.C144_weight_of_one_objective",
    "Verif.C144_settings",
    "Verif.C144_call_defaults",
    "Verif.C144_how_different"
   ],
   "note": "False of the code: 17 documented defaults and two static flags are wrong. For the objective and the weight the difference is without effect; for the tolerances, iteration limits, growth rate and the generator it is not."
  },
  {
   "property": "C145",
   "status": "partial",
   "theorems": [
    "Verif.C145_force_of_a_problem",
    "Verif.C145_force_frame_violated_partial"
   ],
   "note": "Proved: every other grid point of the whole surface is counted once, with its area element and the integrand of the Lorentz force, and computing in one field period is exact. False of the code: each contribution uses the frame of the source, for the current and for the result. On a torus with four grid points the reported radial force is 54 per cent too large."
  },
  {
   "property": "C146",
   "status": "partial",
   "theorems": [
    "Verif.C146_offset_limit",
    "Verif.C146_offset_uniform",
    "Verif.C146_torus_distance_violated_partial",
    "Verif.C146_torus_symmetry_violated_partial"
   ],
   "note": "The limit is proved for all regular surfaces. False on every grid for circular tori: the normal is the one of the edge that ends at the point, half a grid step behind. All offset points are too close to the plasma, and the points of the outer midplane leave it."
  },
  {
   "property": "C147",
   "status": "partial",
   "theorems": [
    "Verif.C147_offset_exact_normals",
    "Verif.C147_offset_default_violated_partial",
    "Verif.C147_arc_violated_partial",
    "Verif.C147_atan_violated_partial"
   ],
   "note": "True of the offset generator with exact normals on grids that resolve the modes. False with the normals it computes itself on all fine grids of half a field period, and false of the other two generators whatever the Tikhonov parameter."
  },
  {
   "property": "C148",
   "status": "proved",
   "theorems": [
    "Verif.C148_objective_nan",
    "Verif.C148_start_nan",
    "Verif.C148_unknowns",
    "Verif.C148_constraints",
    "Verif.C148_nan_start_two",
    "Verif.C148_tests_disagree"
   ],
   "note": "Proved for every arithmetic with NaN and every optimiser with the stated contracts. In addition: the stopping test takes a NaN constraint for satisfied, the choice between multiplier and penalty takes it for violated."
  },
  {
   "property": "C149",
   "status": "partial",
   "theorems": [
    "Verif.C149_fields",
    "Verif.C149_cartesian",
    "Verif.C149_values",
    "Verif.C149_forms",
    "Verif.C149_exists",
    "Verif.C149_potential_exists",
    "Verif.C149_user_problem",
    "Verif.C149_minimisers",
    "Verif.C149_oriented_violated_partial",
    "Verif.C149_huber_violated_partial"
   ],
   "note": "Proved for all quantities whose values are not Cartesian components or the potential itself. False of K, K_dot_grad_K, winding_surface_B (Cartesian components, so bounds on them depend on the orientation), Phi_with_net_current (depends on the origin) and the smoothed Huber loss, which adds the smoothing parameter to every Cartesian component."
  },
  {
   "property": "C150",
   "status": "partial",
   "theorems": [
    "Verif.C150_values",
    "Verif.C150_user_problem",
    "Verif.C150_solutions",
    "Verif.C150_same_current",
    "Verif.C150_growth",
    "Verif.C150_solver_problem",
    "Verif.C150_distance_bound_partial",
    "Verif.C150_unconstrained_partial",
    "Verif.C150_standard_call_partial"
   ],
   "note": "Proved for calls whose objectives and constraints do not use the values of the potential. Missing: smooth calls only for what a run returns, a bound of the gradient for every reason to stop, and rounding."
  },
  {
   "property": "C151",
   "status": "partial",
   "theorems": [
    "Verif.C151_gradients",
    "Verif.C151_call_partial",
    "Verif.C151_dictionary",
    "Verif.C151_every_input"
   ],
   "note": "Proved for exact arithmetic, an exact linear solve, the usual two objectives without constraints and metrics f_B, f_K and f_obj. Missing: the run need not end below the bound on the gradient; rounding; a generator of winding surfaces is assumed twice differentiable (C154: the default one is where the generated surface is regular). For f_obj the derivatives are those with the weights of the call kept, see C63."
  },
  {
   "property": "C152",
   "status": "partial",
   "theorems": [
    "Verif.C152_run",
    "Verif.C152_same_problem",
    "Verif.C152_exceptions_partial",
    "Verif.C152_smoothed_l1_partial",
    "Verif.C152_smoothed_l1_witness_partial",
    "Verif.C152_squared_start_partial",
    "Verif.C152_l1_start_partial"
   ],
   "note": "Proved in exact arithmetic for all objectives and constraints but the exceptions in UnitBound, and for generated winding surfaces if the generator scales (C153: the default one does). False of the exceptions: with smoothing f_huber_K, f_l1_force_cyl, f_max_force2_cyl, f_max_Phi2, f_max_Phi4 and f_l1_Phi, with auxiliary variables f_huber_K, f_l1_Phi, f_max_force2_cyl and f_max_Phi2, each for exactly the changes of units where C152_exceptions_partial has a witness. f_l1_force_cyl with auxiliary variables is excluded because this form has the wrong dimensions anyway (C74)."
  },
  {
   "property": "C153",
   "status": "proved",
   "theorems": [
    "Verif.C153_offset",
    "Verif.C153_arc",
    "Verif.C153_atan",
    "Verif.fitSolve_offset",
    "Verif.fitSolve_regularised",
    "Verif.leastFit_unique",
    "Verif.C153_offset_generator",
    "Verif.C153_arc_generator",
    "Verif.C153_default_generator"
   ],
   "note": "Exact arithmetic; the pseudo-inverse of the linear solver is the solution of least norm."
  },
  {
   "property": "C154",
   "status": "proved",
   "theorems": [
    "Verif.C154_fit",
    "Verif.C154_offset_generator",
    "Verif.C154_arc_generator",
    "Verif.C154_call",
    "Verif.C154_torus_regular",
    "Verif.C154_torus"
   ],
   "note": "Exact arithmetic; the pseudo-inverse of the linear solver is the solution of least norm."
  },
  {
   "property": "C155",
   "status": "proved",
   "theorems": [
    "Verif.C155_values",
    "Verif.C155_current",
    "Verif.C155_user_problem",
    "Verif.C155_potential_exists",
    "Verif.C155_exists",
    "Verif.C155_minimisers",
    "Verif.C155_force_at",
    "Verif.C155_force",
    "Verif.C155_force_values"
   ],
   "note": "Exact arithmetic. Solutions: convex objectives and constraints, not those in Cartesian components; a bound on K_theta without stellarator symmetry only (with it the program cannot evaluate the turned potentials)."
  },
  {
   "property": "C156",
   "status": "proved",
   "theorems": [
    "Verif.C156_inverse",
    "Verif.C156_conditioned",
    "Verif.C156_function",
    "Verif.C156_singular"
   ],
   "note": "Exact arithmetic; the singular value decomposition is given by its contract."
  },
  {
   "property": "C157",
   "status": "partial",
   "theorems": [
    "Verif.C157_order",
    "Verif.C157_last_unit_partial",
    "Verif.C157_swap_partial"
   ],
   "note": "Proved unless a quantity is listed with two units in slack mode: then the auxiliary variable starts at the value for the last unit, and the order changes the start. Exact arithmetic. Which error is raised, if there are several, may depend on the order."
  },
  {
   "property": "C158",
   "status": "partial",
   "theorems": [
    "Verif.C158_fields",
    "Verif.C158_values",
    "Verif.C158_smoothed",
    "Verif.C158_user_problem",
    "Verif.C158_minimisers",
    "Verif.C158_objectives",
    "Verif.C158_constraints",
    "Verif.C158_given_unit",
    "Verif.C158_auto_unit_partial",
    "Verif.C158_opposite_partial"
   ],
   "note": "Proved except: with an automatic unit a constraint on a quantity that changes sign turns into its opposite (general identity and a witness). The smoothed f_huber_K is left out: it adds the square of lse_epsilon to every Cartesian component of K (see C149), so it is not even. Exact arithmetic."
  },
  {
   "property": "C159",
   "status": "proved",
   "theorems": [
    "Verif.C159_unit_sign"
   ],
   "note": "Exact arithmetic. The optimiser enters by contracts: shapes, locality, and equivariance under changes of sign of unknowns (shown for gradient descent)."
  },
  {
   "property": "C160",
   "status": "proved",
   "theorems": [
    "Verif.C160_reversed"
   ],
   "note": "Exact arithmetic. The exceptions named in the statement are necessary: see C158 (automatic units) and C149 (smoothed f_huber_K). The optimiser enters by contracts: shapes, locality, and equivariance under changes of sign of unknowns (shown for gradient descent). Of the gradients only the keys are part of the output in this model."
  },
  {
   "property": "C161",
   "status": "proved",
   "theorems": [
    "Verif.C161_fields",
    "Verif.C161_values",
    "Verif.C161_smoothed",
    "Verif.C161_objectives",
    "Verif.C161_call"
   ],
   "note": "Exact arithmetic. The optimiser enters by contracts: shapes and locality (shown for gradient descent). The smoothed f_huber_K is left out because it shifts Cartesian components (C149); bounds on components of vectors would have to be reflected. Of the gradients only the keys are part of the output in this model."
  },
  {
   "property": "C162",
   "status": "partial",
   "theorems": [
    "Verif.C162_offset_generator",
    "Verif.C162_arc_generator",
    "Verif.C162_call",
    "Verif.C162_inwards_partial"
   ],
   "note": "Shown with the distance reversed, for the uniform offset, the default generator and whole calls with it. False with the same sign: C162_inwards_partial. The generator with angles around the centre (atan) is left out. Exact arithmetic; the pseudo-inverse is the solution of least norm."
  },
  {
   "property": "C163",
   "status": "proved",
   "theorems": [
    "Verif.C163_inner",
    "Verif.C163_solver",
    "Verif.C163_zero_multipliers",
    "Verif.C163_solve",
    "Verif.C163_call",
    "Verif.C163_standard_call"
   ],
   "note": "Exact arithmetic. Smoothing none (the usual call of C163_standard_call keeps the default, which adds no variables for its objectives). The optimiser enters by contracts: counts, values, gradients, shapes, and a zero update for a zero gradient (shown for gradient descent)."
  },
  {
   "property": "C164",
   "status": "proved",
   "theorems": [
    "Verif.C164_weights_give_limits",
    "Verif.C164_same_solutions",
    "Verif.C164_limits_give_weights",
    "Verif.C164_limits_are_weights",
    "Verif.C164_weights_are_limits",
    "Verif.C164_calls",
    "Verif.C164_trade_off"
   ],
   "note": "Exact arithmetic, exact minimisers, scalar quantities. The existence of weights needs convexity and a strictly feasible potential; the other directions need neither."
  },
  {
   "property": "C165",
   "status": "partial",
   "theorems": [
    "Verif.C165_ratio",
    "Verif.C165_user_objective",
    "Verif.C165_single",
    "Verif.C165_slack_violated_partial"
   ],
   "note": "Proved for objectives that are a quantity over its unit. Objectives with auxiliary variables (slack) or with a smoothing length in units of the quantity (approx) depend on the unit itself; the witness is in slack mode. The objective of the user depends on the ratios in all modes (C165_user_objective)."
  },
  {
   "property": "C166",
   "status": "proved",
   "theorems": [
    "Verif.C166_leave_out",
    "Verif.C166_add",
    "Verif.C166_calls"
   ],
   "note": "Exact arithmetic, exact minimisers. Leaving out needs convexity, adding does not."
  },
  {
   "property": "C167",
   "status": "proved",
   "theorems": [
    "Verif.C167_sheet_current",
    "Verif.C167_current_values",
    "Verif.C167_convective",
    "Verif.C167_convective_exists",
    "Verif.C167_K_theta",
    "Verif.C167_surface_integrals",
    "Verif.C167_field_values",
    "Verif.C167_largest",
    "Verif.C167_field_error",
    "Verif.C167_normalised_field_error",
    "Verif.C167_call"
   ],
   "note": "Exact arithmetic. The surface is that of C37-C38. The derivative of the current needs a regular surface, sums need two points in each direction."
  },
  {
   "property": "C168",
   "status": "proved",
   "theorems": [
    "Verif.C168_legacy_force",
    "Verif.C168_legacy_sum"
   ],
   "note": "Exact arithmetic. The force itself is in the wrong frame (C145) in both routines."
  },
  {
   "property": "C169",
   "status": "partial",
   "theorems": [
    "Verif.C169_same_values_partial",
    "Verif.C169_other_entries_partial",
    "Verif.C169_differentiation_fails_partial",
    "Verif.C169_differentiation_works_partial",
    "Verif.C169_extra_names_partial"
   ],
   "note": "False of the code: with verbose > 0 and without constraints there is one more entry, hess_cond, and differentiating fails with TypeError. Values, gradients and errors are the same at every level. Printing itself is assumed to have no effect."
  },
  {
   "property": "C170",
   "status": "partial",
   "theorems": [
    "Verif.C170_fields_partial",
    "Verif.C170_quantities_partial",
    "Verif.C170_call_partial",
    "Verif.C170_offset_generator_partial",
    "Verif.C170_arc_generator_partial",
    "Verif.C170_default_call_partial",
    "Verif.C170_cylindrical_false_partial",
    "Verif.C170_maximum_false_partial"
   ],
   "note": "False of the code: K_dot_grad_K_cyl and f_max_K_dot_grad_K_cyl change with the height. Proved for all quantities without cylindrical components and for calls that use only these; nothing is said about the three cylindrical forces. The winding surface is given, or made by the default generator when the offset points determine the first fit, or by another generator that commutes with the motion."
  },
  {
   "property": "C171",
   "status": "proved",
   "theorems": [
    "Verif.C171_some_vertex_kept",
    "Verif.C171_arc_sample_kept",
    "Verif.C171_arc_fit_unique",
    "Verif.C171_atan_fit_unique",
    "Verif.C171_only_the_tip"
   ],
   "note": "Exact arithmetic; angles are numbers even if a cross section has length zero, where the code divides zero by zero."
  },
  {
   "property": "C172",
   "status": "proved",
   "theorems": [
    "Verif.C172_same_solution",
    "Verif.C172_same_values",
    "Verif.C172_failures",
    "Verif.C172_returns",
    "Verif.C172_same_error"
   ],
   "note": "Errors that JAX itself raises while differentiating are outside the model."
  },
  {
   "property": "C173",
   "status": "proved",
   "theorems": [
    "Verif.C173_inner",
    "Verif.C173_inner_cut",
    "Verif.C173_constrained",
    "Verif.C173_constrained_total",
    "Verif.C173_call"
   ],
   "note": "The optimiser is any that counts its steps."
  },
  {
   "property": "C174",
   "status": "proved",
   "theorems": [
    "Verif.C174_same_requests",
    "Verif.C174_equality",
    "Verif.C174_smaller_limit",
    "Verif.C174_maximum",
    "Verif.C174_squares",
    "Verif.C174_common_factor",
    "Verif.C174_calls",
    "Verif.C174_rewritten"
   ],
   "note": "About the exact solutions of the problems passed to the solver; how near a run gets is C133. Units are numbers."
  },
  {
   "property": "C175",
   "status": "partial",
   "theorems": [
    "Verif.C175_elu_active_partial",
    "Verif.C175_hard_partial",
    "Verif.C175_elu_violated_partial",
    "Verif.C175_softplus_violated_partial",
    "Verif.C175_not_stationary_partial"
   ],
   "note": "False of the code: the solver always uses gplus_hard. Proved for gplus_hard and, where all constraints are active, for gplus_elu; counterexamples for both other masks."
  },
  {
   "property": "C176",
   "status": "proved",
   "theorems": [
    "Verif.C176_call_limits",
    "Verif.C176_call_weights",
    "Verif.C176_limits",
    "Verif.C176_weights",
    "Verif.C176_margin_needed"
   ],
   "note": "C176_margin_needed shows that the strictly feasible potential cannot be dropped."
  },
  {
   "property": "C177",
   "status": "partial",
   "theorems": [
    "Verif.C177_regular_partial",
    "Verif.C177_lk_terms_partial",
    "Verif.C177_hard_partial",
    "Verif.C177_elu_partial",
    "Verif.C177_elu_violated_partial",
    "Verif.C177_softplus_partial",
    "Verif.C177_softplus_violated_partial",
    "Verif.C177_huber_partial",
    "Verif.C177_huber_violated_partial",
    "Verif.C177_start_violated_partial",
    "Verif.C177_force_partial",
    "Verif.C177_legacy_violated_partial"
   ],
   "note": "False of the code for gplus_elu and gplus_softplus beyond the overflow of exp, for f_huber_K where the current vanishes and for the earlier force routine. Proved for gplus_hard, for the present force routine, and elsewhere. Rounding is not modelled."
  },
  {
   "property": "C178",
   "status": "proved",
   "theorems": [
    "Verif.C178_no_net_flux",
    "Verif.C178_no_net_flux_period",
    "Verif.C178_grid",
    "Verif.C178_flux_bound",
    "Verif.C178_residual"
   ],
   "note": "Exact arithmetic."
  },
  {
   "property": "C179",
   "status": "proved",
   "theorems": [
    "Verif.C179_vacuum_field"
   ],
   "note": "Exact arithmetic."
  },
  {
   "property": "C180",
   "status": "proved",
   "theorems": [
    "Verif.C180_ampere",
    "Verif.C180_no_net_current",
    "Verif.C180_every_turn",
    "Verif.C180_torus",
    "Verif.C180_desc"
   ],
   "note": "Exact arithmetic. The linking number is the integral of Gauss; it is computed for circles."
  },
  {
   "property": "C181",
   "status": "proved",
   "theorems": [
    "Verif.C181_toroidal",
    "Verif.C181_normal_field",
    "Verif.C181_f_B",
    "Verif.C181_default_grids",
    "Verif.C181_one_over_R",
    "Verif.C181_torus",
    "Verif.C181_other_grids"
   ],
   "note": "Exact arithmetic. C181_other_grids shows that the alignment of the grids is needed."
  },
  {
   "property": "C182",
   "status": "proved",
   "theorems": [
    "Verif.C182_no_gain",
    "Verif.C182_some_solution",
    "Verif.C182_all_solutions",
    "Verif.C182_default_grids",
    "Verif.C182_user_no_gain",
    "Verif.C182_user_solution",
    "Verif.C182_user_all",
    "Verif.C182_ntor_zero",
    "Verif.C182_returned",
    "Verif.C182_field_needed",
    "Verif.C182_steps_needed"
   ],
   "note": "Exact arithmetic. With constraints: not for Cartesian components."
  },
  {
   "property": "C183",
   "status": "proved",
   "theorems": [
    "Verif.C183_K",
    "Verif.C183_Phi",
    "Verif.C183_B",
    "Verif.C183_field",
    "Verif.C183_current_needed",
    "Verif.C183_f_K_needed",
    "Verif.C183_infeasible"
   ],
   "note": "Exact arithmetic; the values of the quantities themselves (without smoothing)."
  },
  {
   "property": "C184",
   "status": "proved",
   "theorems": [
    "Verif.C184_max_G",
    "Verif.C184_max_I",
    "Verif.C184_limit",
    "Verif.C184_f_K",
    "Verif.C184_resolution_needed",
    "Verif.C184_resolution_needed_I"
   ],
   "note": "Exact arithmetic; loop lengths are those of the evaluation grid."
  }
 ]
}
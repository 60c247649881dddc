{
 "claims": [
  {
   "property": "C01",
   "status": "proved",
   "theorems": [
    "Electrode.c01_select_expand",
    "Electrode.c01_expand_out_of_range"
   ],
   "note": ""
  },
  {
   "property": "C02",
   "status": "proved",
   "theorems": [
    "Electrode.c02_expand_unique",
    "Electrode.c02_expand_select"
   ],
   "note": ""
  },
  {
   "property": "C03",
   "status": "proved",
   "theorems": [
    "Electrode.c03_find_laplace_sound",
    "Electrode.c03_find_laplace_count",
    "Electrode.c03_find_laplace_complete"
   ],
   "note": ""
  },
  {
   "property": "C04",
   "status": "proved",
   "theorems": [
    "Electrode.c04_nidx_row_major",
    "Electrode.c04_nidx_bijective",
    "Electrode.c04_nidx_lt",
    "Electrode.c04_product_order",
    "Electrode.c04_name_to_idx",
    "Electrode.c04_name_to_idx_error",
    "Electrode.c04_name_round_trip"
   ],
   "note": ""
  },
  {
   "property": "C05",
   "status": "proved",
   "theorems": [
    "Electrode.c05_name_deriv_inverse",
    "Electrode.c05_deriv_to_name_domain",
    "Electrode.c05_name_to_deriv_unknown"
   ],
   "note": ""
  },
  {
   "property": "C06",
   "status": "proved",
   "theorems": [
    "Electrode.c06_construct_derivative",
    "Electrode.c06_construct_derivative_error"
   ],
   "note": ""
  },
  {
   "property": "C07",
   "status": "proved",
   "theorems": [
    "Electrode.c07_deriv_to_reduced_idx",
    "Electrode.c07_too_long"
   ],
   "note": ""
  },
  {
   "property": "C08",
   "status": "proved",
   "theorems": [
    "Electrode.c08_rotate_contraction",
    "Electrode.c08_rotate_order",
    "Electrode.c08_rotate_comp",
    "Electrode.c08_rotate_round_trip"
   ],
   "note": ""
  },
  {
   "property": "C09",
   "status": "proved",
   "theorems": [
    "Electrode.c09_rotate_harmonic",
    "Electrode.c09_rotate_select_expand"
   ],
   "note": ""
  },
  {
   "property": "C10",
   "status": "proved",
   "theorems": [
    "Electrode.c10_area_translate",
    "Electrode.c10_centroid_translate",
    "Electrode.c10_first_vertex",
    "Electrode.c10_area_reverse",
    "Electrode.c10_centroid_reverse",
    "Electrode.c10_area_scale",
    "Electrode.c10_centroid_scale",
    "Electrode.c10_area_cut",
    "Electrode.c10_centroid_cut",
    "Electrode.c10_triangle",
    "Electrode.c10_degenerate",
    "Electrode.c10_area_region",
    "Electrode.c10_centroid_region"
   ],
   "note": ""
  },
  {
   "property": "C11",
   "status": "proved",
   "theorems": [
    "Electrode.c11_point_tensor",
    "Electrode.c11_point_component",
    "Electrode.c11_point_gradient"
   ],
   "note": ""
  },
  {
   "property": "C12",
   "status": "proved",
   "theorems": [
    "Electrode.c12_polygon_field"
   ],
   "note": ""
  },
  {
   "property": "C13",
   "status": "proved",
   "theorems": [
    "Electrode.c13_polygon_tensor",
    "Electrode.c13_polygon_component",
    "Electrode.c13_polygon_gradient"
   ],
   "note": ""
  },
  {
   "property": "C14",
   "status": "proved",
   "theorems": [
    "Electrode.c14_polygon_laplace",
    "Electrode.c14_point_laplace"
   ],
   "note": ""
  },
  {
   "property": "C15",
   "status": "proved",
   "theorems": [
    "Electrode.c15_linear",
    "Electrode.c15_error",
    "Electrode.c15_none_is_zeros",
    "Electrode.c15_shape"
   ],
   "note": ""
  },
  {
   "property": "C16",
   "status": "proved",
   "theorems": [
    "Electrode.c16_pointwise",
    "Electrode.c16_append"
   ],
   "note": ""
  },
  {
   "property": "C17",
   "status": "proved",
   "theorems": [
    "Electrode.c17_rotate",
    "Electrode.c17_reverse",
    "Electrode.c17_reverse_component",
    "Electrode.c17_repeat"
   ],
   "note": ""
  },
  {
   "property": "C18",
   "status": "proved",
   "theorems": [
    "Electrode.c18_cut"
   ],
   "note": ""
  },
  {
   "property": "C19",
   "status": "proved",
   "theorems": [
    "Electrode.c19_translate",
    "Electrode.c19_scale",
    "Electrode.c19_scale_points"
   ],
   "note": ""
  },
  {
   "property": "C20",
   "status": "proved",
   "theorems": [
    "Electrode.c20_mirror",
    "Electrode.c20_potential_odd"
   ],
   "note": ""
  },
  {
   "property": "C21",
   "status": "proved",
   "theorems": [
    "Electrode.c21_at_cover",
    "Electrode.c21_ground_points",
    "Electrode.c21_ground_surface",
    "Electrode.c21_limit"
   ],
   "note": ""
  },
  {
   "property": "C22",
   "status": "proved",
   "theorems": [
    "Electrode.c22_plane",
    "Electrode.c22_cover",
    "Electrode.c22_gradient",
    "Electrode.c22_higher"
   ],
   "note": ""
  },
  {
   "property": "C23",
   "status": "proved",
   "theorems": [
    "Electrode.c23_mesh_equals_system",
    "Electrode.c23_only_polygons"
   ],
   "note": ""
  },
  {
   "property": "C24",
   "status": "proved",
   "theorems": [
    "Electrode.c24_to_points"
   ],
   "note": ""
  },
  {
   "property": "C25",
   "status": "partial",
   "theorems": [
    "Electrode.c25_high_orders_zero",
    "Electrode.c25_silently_wrong",
    "Electrode.c25_grid_error_partial"
   ],
   "note": "The property is false: c25_silently_wrong gives a concrete violation (orders >= 6 of point and polygon electrodes return zeros). Holds for grid electrodes (c25_grid_error_partial)."
  },
  {
   "property": "C26",
   "status": "proved",
   "theorems": [
    "Electrode.c26_superposition",
    "Electrode.c26_zero_voltage",
    "Electrode.c26_unknown_typ"
   ],
   "note": ""
  },
  {
   "property": "C27",
   "status": "proved",
   "theorems": [
    "Electrode.c27_permutation",
    "Electrode.c27_concat",
    "Electrode.c27_concat_error"
   ],
   "note": ""
  },
  {
   "property": "C28",
   "status": "proved",
   "theorems": [
    "Electrode.c28_get",
    "Electrode.c28_set_dcs",
    "Electrode.c28_set_rfs",
    "Electrode.c28_set_names",
    "Electrode.c28_read_back"
   ],
   "note": ""
  },
  {
   "property": "C29",
   "status": "proved",
   "theorems": [
    "Electrode.c29_index",
    "Electrode.c29_negative_index",
    "Electrode.c29_name_found",
    "Electrode.c29_name_missing"
   ],
   "note": ""
  },
  {
   "property": "C30",
   "status": "proved",
   "theorems": [
    "Electrode.c30_inside",
    "Electrode.c30_restored",
    "Electrode.c30_restored_rf_failure",
    "Electrode.c30_dc_failure_leaks_rf"
   ],
   "note": "Proved for every block that is entered, whether it ends normally or by an exception. If assigning the requested dc voltages itself fails the requested rf voltages stay: c30_dc_failure_leaks_rf is a concrete violation at the entry of the block."
  },
  {
   "property": "C31",
   "status": "proved",
   "theorems": [
    "Electrode.c31_time_potential"
   ],
   "note": ""
  },
  {
   "property": "C32",
   "status": "proved",
   "theorems": [
    "Electrode.c32_nonneg",
    "Electrode.c32_scale_voltages",
    "Electrode.c32_scale_coeff",
    "Electrode.c32_ignores_dc",
    "Electrode.c32_zero_iff_field_zero",
    "Electrode.c32_needs_rf_scale",
    "Electrode.c32_rf_scale"
   ],
   "note": ""
  },
  {
   "property": "C33",
   "status": "proved",
   "theorems": [
    "Electrode.c33_derivatives",
    "Electrode.c33_surface_systems"
   ],
   "note": ""
  },
  {
   "property": "C34",
   "status": "proved",
   "theorems": [
    "Electrode.c34_potential",
    "Electrode.c34_errors",
    "Electrode.c34_derivatives"
   ],
   "note": ""
  },
  {
   "property": "C35",
   "status": "proved",
   "theorems": [
    "Electrode.c35_minimum_function",
    "Electrode.c35_minimum_gradient",
    "Electrode.c35_minimum_hessian",
    "Electrode.c35_minimum_returns",
    "Electrode.c35_integer_start_truncates"
   ],
   "note": "For floating point start positions. c35_integer_start_truncates: with an integer start position the function handed over is truncated."
  },
  {
   "property": "C36",
   "status": "proved",
   "theorems": [
    "Electrode.c36_exactly_one",
    "Electrode.c36_groups",
    "Electrode.c36_default_voltages",
    "Electrode.c36_partition",
    "Electrode.c36_only_polygons"
   ],
   "note": ""
  },
  {
   "property": "C37",
   "status": "proved",
   "theorems": [
    "Electrode.c37_same_potential"
   ],
   "note": ""
  },
  {
   "property": "C38",
   "status": "partial",
   "theorems": [
    "Electrode.c38_last_objective_ignored",
    "Electrode.c38_succeeds",
    "Electrode.c38_proportional_partial",
    "Electrode.c38_constraints",
    "Electrode.c38_all_proportional_partial",
    "Electrode.c38_strongest",
    "Electrode.c38_solver_failure",
    "Electrode.c38_no_objective"
   ],
   "note": "optimize drops the last row of its projected equations, so the last objective need not be met in proportion (c38_last_objective_ignored). Proved: constraints are fulfilled, all objectives but the last are met in proportion, all are when the direction is not a combination of the other rows, and no feasible proportional pattern is stronger. Solver and pseudoinverse are parameters with stated properties."
  },
  {
   "property": "C39",
   "status": "partial",
   "theorems": [
    "Electrode.c39_shims_partial",
    "Electrode.c39_last_partial",
    "Electrode.c39_values_reset",
    "Electrode.c39_last_objective_leaks",
    "Electrode.c39_succeeds"
   ],
   "note": "Same defect as C38: a shim vector may change the last objective (c39_last_objective_leaks). Proved for all objectives but the last, and for the last vector on the last objective."
  },
  {
   "property": "C40",
   "status": "partial",
   "theorems": [
    "Electrode.c40_constraints",
    "Electrode.c40_objective_partial",
    "Electrode.c40_objective_last",
    "Electrode.c40_objective_overwritten",
    "Electrode.c40_solution_partial",
    "Electrode.c40_feasible",
    "Electrode.c40_failure",
    "Electrode.c40_value_counterexample"
   ],
   "note": "solve overwrites the objective with each local constraint (obj = sum(..)), so the objective is the sum only if no local constraint but the last one has objective terms; negation c40_objective_overwritten. The union of constraints is proved in full. A PotentialObjective with a value as last local constraint makes solve raise TypeError (c40_value_counterexample)."
  },
  {
   "property": "C41",
   "status": "proved",
   "theorems": [
    "Electrode.c41_exactly",
    "Electrode.c41_recurrence",
    "Electrode.c41_no_coefficients",
    "Electrode.c41_hill",
    "Electrode.c41_static_exact"
   ],
   "note": ""
  },
  {
   "property": "C42",
   "status": "proved",
   "theorems": [
    "Electrode.c42_slice",
    "Electrode.c42_mean"
   ],
   "note": ""
  },
  {
   "property": "C43",
   "status": "proved",
   "theorems": [
    "Electrode.c43_modes",
    "Electrode.c43_modes_unsorted",
    "Electrode.c43_hessian",
    "Electrode.c43_fails",
    "Electrode.c43_trace"
   ],
   "note": ""
  },
  {
   "property": "C44",
   "status": "proved",
   "theorems": [
    "Electrode.c44_times",
    "Electrode.c44_values",
    "Electrode.c44_arguments",
    "Electrode.c44_end",
    "Electrode.c44_progress",
    "Electrode.c44_raises"
   ],
   "note": ""
  },
  {
   "property": "C45",
   "status": "partial",
   "theorems": [
    "Electrode.c45_consistent",
    "Electrode.c45_step",
    "Electrode.c45_symmetric",
    "Electrode.c45_secant",
    "Electrode.c45_iterations_partial",
    "Electrode.c45_terminates",
    "Electrode.c45_result",
    "Electrode.c45_fixed",
    "Electrode.c45_hessian_lost",
    "Electrode.c45_one_more"
   ],
   "note": "All but the iteration count: c45_iterations_partial bounds it by maxiter+1 and c45_one_more is a concrete search with maxiter=1 that makes two steps. The secant equation holds after each step after which the Hessian is defined; c45_hessian_lost: it becomes nan when the Hessian was exact along the step."
  },
  {
   "property": "C46",
   "status": "proved",
   "theorems": [
    "Electrode.c46_range",
    "Electrode.c46_index"
   ],
   "note": ""
  },
  {
   "property": "C47",
   "status": "proved",
   "theorems": [
    "Electrode.c47_constraints",
    "Electrode.c47_objective",
    "Electrode.c47_unused"
   ],
   "note": ""
  },
  {
   "property": "C48",
   "status": "proved",
   "theorems": [
    "Electrode.c48_core",
    "Electrode.c48_derivative",
    "Electrode.c48_rotated",
    "Electrode.c48_bad_name",
    "Electrode.c48_get_error"
   ],
   "note": ""
  },
  {
   "property": "C49",
   "status": "proved",
   "theorems": [
    "Electrode.c49_weighted_sum"
   ],
   "note": ""
  },
  {
   "property": "C50",
   "status": "proved",
   "theorems": [
    "Electrode.c50_lower_raises",
    "Electrode.c50_difference",
    "Electrode.c50_smooth",
    "Electrode.c50_reflection",
    "Electrode.c50_constant",
    "Electrode.c50_polynomial",
    "Electrode.c50_bounds",
    "Electrode.c50_bad_norm"
   ],
   "note": ""
  },
  {
   "property": "C51",
   "status": "proved",
   "theorems": [
    "Electrode.c51_origin",
    "Electrode.c51_center",
    "Electrode.c51_inverse_indices",
    "Electrode.c51_inverse_coordinates",
    "Electrode.c51_spacing",
    "Electrode.c51_mgrid",
    "Electrode.c51_points",
    "Electrode.c51_points_all",
    "Electrode.c51_points_distinct",
    "Electrode.c51_xyz",
    "Electrode.c51_xyz_fails"
   ],
   "note": ""
  },
  {
   "property": "C52",
   "status": "proved",
   "theorems": [
    "Electrode.c52_nodes",
    "Electrode.c52_affine",
    "Electrode.c52_range",
    "Electrode.c52_edge",
    "Electrode.c52_continuous",
    "Electrode.c52_from_result",
    "Electrode.c52_from_result_field"
   ],
   "note": ""
  },
  {
   "property": "C53",
   "status": "partial",
   "theorems": [
    "Electrode.c53_orders_partial",
    "Electrode.c53_last_order_missing",
    "Electrode.c53_repeat",
    "Electrode.c53_empty",
    "Electrode.c53_succeeds",
    "Electrode.c53_mean_value"
   ],
   "note": "generate(maxderiv) provides the orders 0..maxderiv-1 only: c53_last_order_missing. Everything else is proved, and each generated value is a value of the derivative it stands for within one voxel (c53_mean_value)."
  },
  {
   "property": "C54",
   "status": "proved",
   "theorems": [
    "Electrode.c54_members",
    "Electrode.c54_nodup",
    "Electrode.c54_places",
    "Electrode.c54_count",
    "Electrode.c54_table"
   ],
   "note": ""
  },
  {
   "property": "C55",
   "status": "proved",
   "theorems": [
    "Electrode.c55_roundtrip",
    "Electrode.c55_synthesis",
    "Electrode.c55_analysis",
    "Electrode.c55_new_numpy",
    "Electrode.c55_old_numpy",
    "Electrode.c55_shapes",
    "Electrode.c55_legendre",
    "Electrode.c55_identity"
   ],
   "note": "From what scipy documents of p_roots (Gauss-Legendre exactness) and lpmn. With numpy 1.12 or newer the constructor raises ValueError for nmax >= 2 (c55_new_numpy)."
  },
  {
   "property": "C56",
   "status": "proved",
   "theorems": [
    "Electrode.c56_cartesian",
    "Electrode.c56_spherical",
    "Electrode.c56_range"
   ],
   "note": ""
  },
  {
   "property": "C57",
   "status": "partial",
   "theorems": [
    "Electrode.c57_inverse",
    "Electrode.c57_rates_partial",
    "Electrode.c57_not_gradient",
    "Electrode.c57_direction"
   ],
   "note": "The two directions are inverse (c57_inverse). What is converted are displacements, in the order (dr, dphi, dtheta): c57_rates_partial. That gradients are converted is false in every order of the components: c57_not_gradient."
  },
  {
   "property": "C58",
   "status": "proved",
   "theorems": [
    "Electrode.c58_recurrence",
    "Electrode.c58_inner",
    "Electrode.c58_equation"
   ],
   "note": ""
  },
  {
   "property": "C59",
   "status": "partial",
   "theorems": [
    "Electrode.c59_derivatives",
    "Electrode.c59_initial",
    "Electrode.c59_uninitialised",
    "Electrode.c59_init_value_partial",
    "Electrode.c59_init_value_fails",
    "Electrode.c59_init_modes"
   ],
   "note": "The initial values, the derivatives, and init_value at t0 = 0 are proved. For every t0 != 0 init_value raises TypeError (np.array(A,B)), proved as c59_init_value_fails. init_sol without nc raises UnboundLocalError for the modes d0ap and ivp."
  },
  {
   "property": "C60",
   "status": "proved",
   "theorems": [
    "Electrode.c60_each_once",
    "Electrode.c60_order",
    "Electrode.c60_match",
    "Electrode.c60_unmatched",
    "Electrode.c60_names",
    "Electrode.c60_named"
   ],
   "note": ""
  },
  {
   "property": "C61",
   "status": "partial",
   "theorems": [
    "Electrode.c61_names",
    "Electrode.c61_union",
    "Electrode.c61_earlier_wins",
    "Electrode.c61_shrinks",
    "Electrode.c61_overlap_partial",
    "Electrode.c61_disjoint",
    "Electrode.c61_tiny_overlap"
   ],
   "note": "Shapes are measurable sets up to area zero (Spec.Faithful). Union unchanged, earlier electrodes win, names and order kept. Disjointness is false: an overlap with an area of at most 2^-23 is left (c61_tiny_overlap); c61_overlap_partial bounds every remaining overlap by that, c61_disjoint: disjoint when no overlap is that small."
  },
  {
   "property": "C62",
   "status": "proved",
   "theorems": [
    "Electrode.c62_roundtrip",
    "Electrode.c62_defaults",
    "Electrode.c62_no_exterior",
    "Electrode.c62_free_hole",
    "Electrode.c62_invalid"
   ],
   "note": "For systems with correctly nested holes (Spec.WellNested). Voltages and covers are not kept: c62_defaults. Electrodes without exterior and holes outside every exterior disappear: c62_no_exterior, c62_free_hole."
  },
  {
   "property": "C63",
   "status": "partial",
   "theorems": [
    "Electrode.c63_pads",
    "Electrode.c63_inside",
    "Electrode.c63_odd",
    "Electrode.c63_odd_outside",
    "Electrode.c63_refused"
   ],
   "note": "Number, position and order of the pads are proved for all parameters. With odd=True the last pad of each side sticks out of the square (c63_odd_outside)."
  },
  {
   "property": "C64",
   "status": "partial",
   "theorems": [
    "Electrode.c64_save",
    "Electrode.c64_nosave",
    "Electrode.c64_tracks",
    "Electrode.c64_sequence",
    "Electrode.c64_first_save",
    "Electrode.c64_init",
    "Electrode.c64_accept",
    "Electrode.c64_reject_fails",
    "Electrode.c64_userown_fails",
    "Electrode.c64_no_propose",
    "Electrode.c64_unknown",
    "Electrode.c64_shared"
   ],
   "note": "Accepting works (c64_accept, c64_save, c64_sequence). Rejecting always raises AttributeError and restores nothing (c64_reject_fails); voltages given by the user are saved and then UnboundLocalError is raised (c64_userown_fails); the first save must cover all electrodes (c64_first_save)."
  },
  {
   "property": "C65",
   "status": "proved",
   "theorems": [
    "Electrode.c65_mesh",
    "Electrode.c65_separate",
    "Electrode.c65_empty"
   ],
   "note": ""
  },
  {
   "property": "C66",
   "status": "partial",
   "theorems": [
    "Electrode.c66_parse_partial",
    "Electrode.c66_python3_no_path",
    "Electrode.c66_python3_fails",
    "Electrode.c66_count",
    "Electrode.c66_blank_line",
    "Electrode.c66_continuation_first",
    "Electrode.c66_bad_number",
    "Electrode.c66_ragged"
   ],
   "note": "Proved for Python 2 (c66_parse_partial). With Python 3 the map objects make every record raise TypeError (c66_python3_fails). Blank lines raise IndexError (c66_blank_line). float() is a parameter."
  },
  {
   "property": "C67",
   "status": "proved",
   "theorems": [
    "Electrode.c67_product",
    "Electrode.c67_rotation",
    "Electrode.c67_axes",
    "Electrode.c67_roundtrip_close",
    "Electrode.c67_roundtrip",
    "Electrode.c67_principal",
    "Electrode.c67_angles",
    "Electrode.c67_odd_negative"
   ],
   "note": "Exact except within _EPS of gimbal lock, where each entry is within 2 _EPS; that is in the statement."
  },
  {
   "property": "C68",
   "status": "proved",
   "theorems": [
    "Electrode.c68_multiply",
    "Electrode.c68_conjugate",
    "Electrode.c68_inverse",
    "Electrode.c68_rotation",
    "Electrode.c68_action",
    "Electrode.c68_compose",
    "Electrode.c68_compose_unit",
    "Electrode.c68_short",
    "Electrode.c68_conjugate_matrix",
    "Electrode.c68_sign",
    "Electrode.c68_about_axis",
    "Electrode.c68_short_axis"
   ],
   "note": "c68_short and c68_short_axis show that the two exemptions in the statement are needed."
  },
  {
   "property": "C69",
   "status": "proved",
   "theorems": [
    "Electrode.c69_taylor",
    "Electrode.c69_derivatives",
    "Electrode.c69_bijective",
    "Electrode.c69_unit",
    "Electrode.c69_unit_row",
    "Electrode.c69_electrode",
    "Electrode.c69_wrong_length",
    "Electrode.c69_high"
   ],
   "note": "Orders above 5 are returned multiplied by one number only (c69_high)."
  },
  {
   "property": "C70",
   "status": "proved",
   "theorems": [
    "Electrode.c70_plane",
    "Electrode.c70_range",
    "Electrode.c70_given",
    "Electrode.c70_levels",
    "Electrode.c70_flat",
    "Electrode.c70_default_grid",
    "Electrode.c70_not_cubic"
   ],
   "note": "For a constant nonnegative potential the default levels coincide (c70_flat). With a recent numpy grids with different numbers of points per dimension raise ValueError (c70_not_cubic). matplotlib itself is not modelled."
  },
  {
   "property": "C71",
   "status": "partial",
   "theorems": [
    "Electrode.c71_index_error",
    "Electrode.c71_no_value_partial"
   ],
   "note": "The documented ValueError is never reached: c71_index_error proves that every order above 4 raises IndexError while preparing the electrical potentials. c71_no_value_partial: at least no value is returned."
  },
  {
   "property": "C72",
   "status": "partial",
   "theorems": [
    "Electrode.c72_saddle_partial",
    "Electrode.c72_saddle_gradient_wrong"
   ],
   "note": "False in general: c72_saddle_gradient_wrong (the tensors are rotated with the transposed matrix). c72_saddle_partial: holds for symmetric coordinate matrices, e.g. the default."
  },
  {
   "property": "C73",
   "status": "proved",
   "theorems": [
    "Electrode.c73_motion",
    "Electrode.c73_sorted"
   ],
   "note": ""
  },
  {
   "property": "C74",
   "status": "partial",
   "theorems": [
    "Electrode.c74_acceleration_partial",
    "Electrode.c74_uphill",
    "Electrode.c74_wrong_sign"
   ],
   "note": "The sign is wrong in the code: the ion is accelerated up the gradient (c74_uphill, concrete witness c74_wrong_sign). c74_acceleration_partial gives the value up to sign."
  },
  {
   "property": "C75",
   "status": "proved",
   "theorems": [
    "Electrode.c75_direction"
   ],
   "note": ""
  },
  {
   "property": "C76",
   "status": "partial",
   "theorems": [
    "Electrode.c76_matrix",
    "Electrode.c76_defined",
    "Electrode.c76_zero",
    "Electrode.c76_exponent",
    "Electrode.c76_unbounded",
    "Electrode.c76_kernel",
    "Electrode.c76_tolerance",
    "Electrode.c76_tolerance_fails"
   ],
   "note": "Proved for every order wherever the code gives an exponent; it does exactly if a is not negative and not the square of an even number up to twice the order (c76_defined). In particular the code divides by zero if there is no static field (c76_zero)."
  },
  {
   "property": "C79",
   "status": "partial",
   "theorems": [
    "Electrode.c79_position",
    "Electrode.c79_force",
    "Electrode.c79_force_direction"
   ],
   "note": "Proved for method='position'. With method='force' the change has the opposite sign: the linearised new minimum is at -dis along the axis (c79_force, c79_force_direction). scipy.linalg.solve is a parameter with the contract Spec.Solves."
  },
  {
   "property": "C77",
   "status": "proved",
   "theorems": [
    "Electrode.c77_names",
    "Electrode.c77_union",
    "Electrode.c77_region"
   ],
   "note": ""
  },
  {
   "property": "C78",
   "status": "proved",
   "theorems": [
    "Electrode.c78_deep",
    "Electrode.c78_polygons",
    "Electrode.c78_idempotent",
    "Electrode.c78_default"
   ],
   "note": "Without a test and with deep=False the call raises TypeError (c78_default)."
  },
  {
   "property": "C80",
   "status": "proved",
   "theorems": [
    "Electrode.c80_points",
    "Electrode.c80_area"
   ],
   "note": ""
  },
  {
   "property": "C81",
   "status": "partial",
   "theorems": [
    "Electrode.c81_result",
    "Electrode.c81_none",
    "Electrode.c81_refine",
    "Electrode.c81_rounds",
    "Electrode.c81_boundary"
   ],
   "note": "The result and the refinement between triangles are proved (c81_result, c81_none, c81_refine, c81_rounds). At the outer boundary triangulate reports neighbour -1, and the code compares with the last triangle of the mesh instead of ignoring it (c81_boundary)."
  },
  {
   "property": "C82",
   "status": "proved",
   "theorems": [
    "Electrode.c82_from_euler",
    "Electrode.c82_from_quaternion",
    "Electrode.c82_angles"
   ],
   "note": ""
  },
  {
   "property": "C83",
   "status": "proved",
   "theorems": [
    "Electrode.c83_precise",
    "Electrode.c83_eigh",
    "Electrode.c83_agree",
    "Electrode.c83_inverse"
   ],
   "note": "eigh and argmax are parameters with numpy's contract as hypothesis; an instance is exhibited."
  },
  {
   "property": "C84",
   "status": "proved",
   "theorems": [
    "Electrode.c84_ends",
    "Electrode.c84_speed",
    "Electrode.c84_arrives",
    "Electrode.c84_parallel",
    "Electrode.c84_unit",
    "Electrode.c84_odd_spin"
   ],
   "note": "c84_odd_spin shows that half turns (odd spin), which the docstring uses, leave the unit sphere."
  },
  {
   "property": "C85",
   "status": "proved",
   "theorems": [
    "Electrode.c85_translation",
    "Electrode.c85_reflection",
    "Electrode.c85_rotation",
    "Electrode.c85_rotation_add",
    "Electrode.c85_scale"
   ],
   "note": ""
  },
  {
   "property": "C86",
   "status": "proved",
   "theorems": [
    "Electrode.c86_monotone",
    "Electrode.c86_integral",
    "Electrode.c86_point",
    "Electrode.c86_unit",
    "Electrode.c86_boundary",
    "Electrode.c86_bounds",
    "Electrode.c86_far",
    "Electrode.c86_region"
   ],
   "note": ""
  },
  {
   "property": "C87",
   "status": "proved",
   "theorems": [
    "Electrode.c87_mesh",
    "Electrode.c87_polygon",
    "Electrode.c87_plane",
    "Electrode.c87_plane_compiled"
   ],
   "note": "Off the image planes. In the plane the Python kernel yields nan or ZeroDivisionError (c87_plane), the compiled kernel zero (c87_plane_compiled). The point kernel has the same text in both files. numexpr is not modelled."
  },
  {
   "property": "C88",
   "status": "partial",
   "theorems": [
    "Electrode.c88_energy_partial",
    "Electrode.c88_gradient_partial",
    "Electrode.c88_single",
    "Electrode.c88_hessian_fails",
    "Electrode.c88_fails",
    "Electrode.c88_hessian_entries",
    "Electrode.c88_hessian_wrong"
   ],
   "note": "Energy and gradient are right for two or more ions (c88_energy_partial, c88_gradient_partial). The Hessian raises ValueError unless there are three ions (c88_hessian_fails, c88_fails), and is wrong for three (c88_hessian_wrong). With one ion the energy is masked (c88_single)."
  },
  {
   "property": "C89",
   "status": "partial",
   "theorems": [
    "Electrode.c89_report_partial",
    "Electrode.c89_motion",
    "Electrode.c89_complete",
    "Electrode.c89_ends",
    "Electrode.c89_needs_rf_scale",
    "Electrode.c89_axis_ignored",
    "Electrode.c89_ions",
    "Electrode.c89_close",
    "Electrode.c89_close_when",
    "Electrode.c89_heating_low",
    "Electrode.c89_improper"
   ],
   "note": "Every line of a report that comes to its end is right in the sense of Spec/Report.lean (c89_report_partial), it is complete for one ion (c89_complete, c89_ends), and the mode lines describe solutions of the equation of motion (c89_motion). Not so: several ions (c89_ions), heating rates (c89_heating_low), Euler angles of improper frames (c89_improper), closing (c89_close), axis (c89_axis_ignored)."
  },
  {
   "property": "C90",
   "status": "partial",
   "theorems": [
    "Electrode.c90_pieces",
    "Electrode.c90_area",
    "Electrode.c90_names",
    "Electrode.c90_no_gaps",
    "Electrode.c90_bridges",
    "Electrode.c90_rounding",
    "Electrode.c90_corners",
    "Electrode.c90_digits"
   ],
   "note": "Proved for all inputs over geometry libraries that compute with plane regions (FaithfulData): pieces, area, names. The rest of the square is output only if there are gaps or routes (c90_no_gaps), and its coordinates are rounded afterwards (c90_rounding), which can make pieces overlap slightly; not proved to be free of overlaps after rounding."
  },
  {
   "property": "C91",
   "status": "partial",
   "theorems": [
    "Electrode.c91_read",
    "Electrode.c91_structure",
    "Electrode.c91_missing",
    "Electrode.c91_no_structure",
    "Electrode.c91_routes_ignored",
    "Electrode.c91_round_trip",
    "Electrode.c91_error",
    "Electrode.c91_integers",
    "Electrode.c91_holes_lost",
    "Electrode.c91_names",
    "Electrode.c91_wrong_name"
   ],
   "note": "What is read (c91_read, c91_structure) and the round trip (c91_round_trip, c91_error, c91_names) are proved. Not so: holes are lost (c91_holes_lost), names can go to touching pieces (c91_wrong_name), routes are ignored by default (c91_routes_ignored), missing structures are not noticed (c91_missing)."
  },
  {
   "property": "C92",
   "status": "proved",
   "theorems": [
    "Electrode.c92_names",
    "Electrode.c92_gap",
    "Electrode.c92_invalid",
    "Electrode.c92_half",
    "Electrode.c92_kept",
    "Electrode.c92_vanish",
    "Electrode.c92_zero",
    "Electrode.c92_simplify",
    "Electrode.c92_unify",
    "Electrode.c92_validate",
    "Electrode.c92_restrict",
    "Electrode.c92_within",
    "Electrode.c92_gaps_union"
   ],
   "note": "The factor c in Shrinks accounts for the chords the geometry library uses for arcs (one per right angle, as the code asks for); for exact shrinking c = 1. Electrodes that cannot be shrunk stay as they are (c92_invalid) with half of the gap (c92_half)."
  },
  {
   "property": "C93",
   "status": "proved",
   "theorems": [
    "Electrode.c93_derivatives",
    "Electrode.c93_path",
    "Electrode.c93_centroid",
    "Electrode.c93_to_points"
   ],
   "note": ""
  },
  {
   "property": "C94",
   "status": "partial",
   "theorems": [
    "Electrode.c94_values",
    "Electrode.c94_succeeds",
    "Electrode.c94_others",
    "Electrode.c94_no_file",
    "Electrode.c94_no_data",
    "Electrode.c94_field_first"
   ],
   "note": "Values, success, ignored arrays and missing files are proved. Not so: the order of the arrays matters (c94_field_first), and without data the error is an UnboundLocalError (c94_no_data)."
  },
  {
   "property": "C95",
   "status": "partial",
   "theorems": [
    "Electrode.c95_unstructured",
    "Electrode.c95_unstructured_ok",
    "Electrode.c95_not_implemented",
    "Electrode.c95_sphere",
    "Electrode.c95_points",
    "Electrode.c95_expansion"
   ],
   "note": "Points, spheres and the expansion are proved (expansion for numpy before 1.12, as the constructor raises otherwise, c55_new_numpy). Not so: methods without meaning raise TypeError and AttributeError (c95_not_implemented)."
  },
  {
   "property": "C96",
   "status": "partial",
   "theorems": [
    "Electrode.c96_polygons",
    "Electrode.c96_polygons_ok",
    "Electrode.c96_points",
    "Electrode.c96_negative",
    "Electrode.c96_labels",
    "Electrode.c96_system",
    "Electrode.c96_voltages",
    "Electrode.c96_scale",
    "Electrode.c96_short",
    "Electrode.c96_empty"
   ],
   "note": "Patches, discs, labels, colors are proved. Not so: holes among points (c96_negative), electrodes without voltages (c96_short), empty systems (c96_empty)."
  },
  {
   "property": "C97",
   "status": "proved",
   "theorems": [
    "Electrode.c97_orthogonal",
    "Electrode.c97_parallel",
    "Electrode.c97_perspective",
    "Electrode.c97_pseudo",
    "Electrode.c97_depth",
    "Electrode.c97_pseudo_defined"
   ],
   "note": ""
  },
  {
   "property": "C98",
   "status": "proved",
   "theorems": [
    "Electrode.c98_box",
    "Electrode.c98_frustum",
    "Electrode.c98_error"
   ],
   "note": ""
  },
  {
   "property": "C99",
   "status": "proved",
   "theorems": [
    "Electrode.c99_shear",
    "Electrode.c99_volume",
    "Electrode.c99_inverse",
    "Electrode.c99_error"
   ],
   "note": ""
  },
  {
   "property": "C100",
   "status": "proved",
   "theorems": [
    "Electrode.c100_cell",
    "Electrode.c100_defined",
    "Electrode.c100_volume"
   ],
   "note": ""
  },
  {
   "property": "C101",
   "status": "proved",
   "theorems": [
    "Electrode.c101_error",
    "Electrode.c101_close",
    "Electrode.c101_roundtrip",
    "Electrode.c101_scales",
    "Electrode.c101_order",
    "Electrode.c101_parts"
   ],
   "note": ""
  },
  {
   "property": "C102",
   "status": "partial",
   "theorems": [
    "Electrode.c102_reflection",
    "Electrode.c102_rotation",
    "Electrode.c102_projection",
    "Electrode.c102_shear",
    "Electrode.c102_clip",
    "Electrode.c102_scale_partial",
    "Electrode.c102_scale_factor",
    "Electrode.c102_scale_counterexample",
    "Electrode.c102_orthogonalization_partial",
    "Electrode.c102_orthogonalization_counterexample",
    "Electrode.c102_same",
    "Electrode.c102_same_scaled",
    "Electrode.c102_same_counterexample"
   ],
   "note": "Equal for reflection, rotation, projection, shear, clip and is_same_transform. Not so: scale_matrix with a direction that has not length one (c102_scale_counterexample) and orthogonalization_matrix for impossible angles (c102_orthogonalization_counterexample)."
  },
  {
   "property": "C103",
   "status": "partial",
   "theorems": [
    "Electrode.c103_names",
    "Electrode.c103_tuples",
    "Electrode.c103_euler_matrix",
    "Electrode.c103_euler_from_partial",
    "Electrode.c103_quat_euler_partial",
    "Electrode.c103_names_counterexample",
    "Electrode.c103_algebra",
    "Electrode.c103_about_axis",
    "Electrode.c103_matrix",
    "Electrode.c103_matrix_python",
    "Electrode.c103_matrix_counterexample",
    "Electrode.c103_precise",
    "Electrode.c103_precise_multiple",
    "Electrode.c103_precise_counterexample",
    "Electrode.c103_slerp_partial",
    "Electrode.c103_slerp_counterexample"
   ],
   "note": "Equal results for all names and tuples of the table, and the accepted strings are determined (c103_names). Not so: backwards names and capital letters (c103_names_counterexample), the argument of quaternion_matrix (c103_matrix_counterexample), the sign of precise quaternions (c103_precise_counterexample), slerp at -1 (c103_slerp_counterexample)."
  },
  {
   "property": "C104",
   "status": "partial",
   "theorems": [
    "Electrode.c104_inverse",
    "Electrode.c104_small",
    "Electrode.c104_large",
    "Electrode.c104_singular",
    "Electrode.c104_singular_counterexample",
    "Electrode.c104_refused_counterexample",
    "Electrode.c104_large_counterexample",
    "Electrode.c104_pivots"
   ],
   "note": "Every finite result is the inverse (c104_inverse) and what is refused is determined for sizes 1 to 4 (c104_small) and bounded above (c104_large). Not so: singular matrices above size four may give inf or nan (c104_singular_counterexample); invertible matrices with a small determinant are refused up to size four (c104_refused_counterexample)."
  },
  {
   "property": "C105",
   "status": "partial",
   "theorems": [
    "Electrode.c105_matrix",
    "Electrode.c105_rotation",
    "Electrode.c105_initial",
    "Electrode.c105_progress",
    "Electrode.c105_path",
    "Electrode.c105_back",
    "Electrode.c105_drag",
    "Electrode.c105_axis",
    "Electrode.c105_next",
    "Electrode.c105_nan_counterexample",
    "Electrode.c105_nearest_counterexample",
    "Electrode.c105_free"
   ],
   "note": "Proved for all histories, except what is not so: an axis (0, 0, -1) or an empty list of axes makes nan or an exception (c105_nan_counterexample), and the Python choice of the nearest axis is not always the nearest (c105_nearest_counterexample); c105_progress excludes the first, c105_axis states the second for the compiled functions only. next is stated for steps above about 4e-8."
  },
  {
   "property": "C106",
   "status": "partial",
   "theorems": [
    "Electrode.c106_reflection",
    "Electrode.c106_scale",
    "Electrode.c106_parallel",
    "Electrode.c106_perspective",
    "Electrode.c106_rotation",
    "Electrode.c106_shear",
    "Electrode.c106_not_finite",
    "Electrode.c106_small_angle",
    "Electrode.c106_distance_one",
    "Electrode.c106_origin",
    "Electrode.c106_pseudo",
    "Electrode.c106_no_shear"
   ],
   "note": "Proved for every eig that meets its specification: no exception, and the same matrix again if the result is finite; finite if eig finds no fixed point at infinity. Excluded because the code fails there: rotation angles and scale factors whose distance from none is below the tolerance (c106_small_angle), perspective at distance one or onto a plane through the origin (c106_distance_one, c106_origin), some orders for pseudo depth (c106_pseudo), shears by zero (c106_no_shear), and bases with points at infinity (c106_not_finite). Shears are stated for directions exactly in the plane."
  },
  {
   "property": "C107",
   "status": "partial",
   "theorems": [
    "Electrode.c107_scale_best_partial",
    "Electrode.c107_methods",
    "Electrode.c107_superimposition",
    "Electrode.c107_superimposition_scale",
    "Electrode.c107_affine_partial",
    "Electrode.c107_few_points",
    "Electrode.c107_scale_not_best",
    "Electrode.c107_shape",
    "Electrode.c107_rigid",
    "Electrode.c107_exact",
    "Electrode.c107_scale_nan",
    "Electrode.c107_scale"
   ],
   "note": "The rigid case is proved in full for both methods and all dimensions (c107_rigid, c107_exact, c107_methods). With scale the result is only the best for its own factor (c107_scale_best_partial), exact similarities are found (c107_scale), and the code violates the full claim (c107_scale_not_best). With shear an affine transformation is found if the points do not lie in a plane (c107_affine_partial); the code fails otherwise (c107_few_points)."
  },
  {
   "property": "C108",
   "status": "partial",
   "theorems": [
    "Electrode.c108_defined",
    "Electrode.c108_exponent",
    "Electrode.c108_periods",
    "Electrode.c108_bounded",
    "Electrode.c108_unbounded",
    "Electrode.c108_edge",
    "Electrode.c108_static",
    "Electrode.c108_d0ap_nan",
    "Electrode.c108_zero"
   ],
   "note": "The exponent and the warning are proved for all a and q (c108_exponent, c108_bounded, c108_unbounded). The code violates the rest: at the edge there is no warning (c108_edge), nu_exp_d0ap gives nan for a = 0 and a = 1 (c108_d0ap_nan), and nu_exp_det divides by zero for a = 0 (c108_zero) and the squares of even numbers."
  },
  {
   "property": "C109",
   "status": "partial",
   "theorems": [
    "Electrode.c109_smooth_2",
    "Electrode.c109_smooth",
    "Electrode.c109_smooth_4",
    "Electrode.c109_smooth_gap",
    "Electrode.c109_bad_order",
    "Electrode.c109_ignored",
    "Electrode.c109_limit",
    "Electrode.c109_signed",
    "Electrode.c109_electrode",
    "Electrode.c109_objective",
    "Electrode.c109_symmetry",
    "Electrode.c109_potential",
    "Electrode.c109_force",
    "Electrode.c109_force_zero",
    "Electrode.c109_curvature",
    "Electrode.c109_coord_refused",
    "Electrode.c109_coord_wrong",
    "Electrode.c109_alias"
   ],
   "note": "The meaning is proved for all orders, steps, norms and limits without coord, and for smooth with order 2 and step 1 (c109_limit, c109_objective, c109_smooth, c109_symmetry, c109_potential, c109_force, c109_curvature). The code violates the rest (c109_smooth_gap, c109_coord_refused, c109_coord_wrong, c109_alias)."
  },
  {
   "property": "C110",
   "status": "proved",
   "theorems": [
    "Electrode.c110_unit",
    "Electrode.c110_uniform",
    "Electrode.c110_rotation",
    "Electrode.c110_matrix",
    "Electrode.c110_only",
    "Electrode.c110_component"
   ],
   "note": ""
  },
  {
   "property": "C111",
   "status": "partial",
   "theorems": [
    "Electrode.c111_norm",
    "Electrode.c111_norm_axis",
    "Electrode.c111_unit",
    "Electrode.c111_unit_zero",
    "Electrode.c111_unit_axis",
    "Electrode.c111_angle",
    "Electrode.c111_angle_zero",
    "Electrode.c111_angle_cases",
    "Electrode.c111_undirected",
    "Electrode.c111_triangle",
    "Electrode.c111_invariant",
    "Electrode.c111_columns",
    "Electrode.c111_product",
    "Electrode.c111_product_rotation",
    "Electrode.c111_product_zero",
    "Electrode.c111_concat",
    "Electrode.c111_concat_parts",
    "Electrode.c111_same",
    "Electrode.c111_same_close",
    "Electrode.c111_same_order"
   ],
   "note": "All parts are proved except that is_same_quaternion is the same in either order: the code violates it (c111_same_order)."
  },
  {
   "property": "C112",
   "status": "partial",
   "theorems": [
    "Electrode.c112_tridiag",
    "Electrode.c112_tridiag_exact",
    "Electrode.c112_superimposition_form",
    "Electrode.c112_superimposition_partial",
    "Electrode.c112_usesvd",
    "Electrode.c112_shape",
    "Electrode.c112_superimposition_ends",
    "Electrode.c112_vector",
    "Electrode.c112_vector_kernel",
    "Electrode.c112_vector_double",
    "Electrode.c112_small",
    "Electrode.c112_quat_partial",
    "Electrode.c112_interval",
    "Electrode.c112_interval_sharp",
    "Electrode.c112_terminates",
    "Electrode.c112_max_le",
    "Electrode.c112_max_partial",
    "Electrode.c112_max_wrong",
    "Electrode.c112_large"
   ],
   "note": "Proved: the search ends, the result is a rotation with the scale and the translation (c112_superimposition_form), and it is the best one up to a bound given by the extent of the points, if no negative pivot above -1e-18 is replaced (c112_superimposition_partial); the quaternion of a rotation matrix under the same condition (c112_quat_partial). The code violates the rest: ValueError at small and large scales (c112_small, c112_large), wrong eigenvalue after a replaced pivot (c112_max_wrong)."
  },
  {
   "property": "C113",
   "status": "proved",
   "theorems": [
    "Electrode.c113_d0ap",
    "Electrode.c113_bla",
    "Electrode.c113_d0ap_small"
   ],
   "note": ""
  },
  {
   "property": "C114",
   "status": "partial",
   "theorems": [
    "Electrode.c114_limit",
    "Electrode.c114_accurate",
    "Electrode.c114_bounded",
    "Electrode.c114_unbounded",
    "Electrode.c114_tolerance",
    "Electrode.c114_fails",
    "Electrode.c114_resonance"
   ],
   "note": "Proved for all q and all positive a that are not squares of even numbers (c114_limit, c114_accurate, c114_bounded, c114_unbounded, c114_tolerance, c114_resonance). The code violates the rest: it gives nan for negative a and divides by zero at the squares of even numbers, zero among them (c114_fails)."
  },
  {
   "property": "C115",
   "status": "partial",
   "theorems": [
    "Electrode.c115_start_rests",
    "Electrode.c115_move_rests",
    "Electrode.c115_axes",
    "Electrode.c115_order",
    "Electrode.c115_array",
    "Electrode.c115_label_partial",
    "Electrode.c115_sign",
    "Electrode.c115_propose",
    "Electrode.c115_changes",
    "Electrode.c115_override",
    "Electrode.c115_failed",
    "Electrode.c115_repeat",
    "Electrode.c115_history",
    "Electrode.c115_recorded"
   ],
   "note": "Proved: axes and curvatures (c115_axes, c115_order), what a proposal does (c115_propose, c115_override), and the histories for every sequence of calls (c115_history, c115_recorded). The code violates the rest: the labels depend on the signs of the eigenvectors (c115_sign; c115_label_partial for nonnegative signs), arrays raise (c115_array), a failed proposal stays applied (c115_failed), and a repeated proposal by position undoes the first (c115_repeat)."
  },
  {
   "property": "C116",
   "status": "proved",
   "theorems": [
    "Electrode.c116_ortho_means",
    "Electrode.c116_ortho",
    "Electrode.c116_identity",
    "Electrode.c116_identity_means",
    "Electrode.c116_grid",
    "Electrode.c116_sums"
   ],
   "note": ""
  },
  {
   "property": "C117",
   "status": "partial",
   "theorems": [
    "Electrode.c117_call",
    "Electrode.c117_straight",
    "Electrode.c117_clockwise_counterexample",
    "Electrode.c117_start_counterexample",
    "Electrode.c117_open",
    "Electrode.c117_degree_zero",
    "Electrode.c117_closed",
    "Electrode.c117_unchanged",
    "Electrode.c117_polygons"
   ],
   "note": "Proved: what the spline routine is asked for, including weights by an independent description of straight points (c117_call), straight continuation inside the list (c117_straight), errors, closedness, the unchanged curve, and the polygons. The code violates the rest: small clockwise turns are never straight (c117_clockwise_counterexample), and the closing point is judged by the x axis (c117_start_counterexample)."
  },
  {
   "property": "C118",
   "status": "partial",
   "theorems": [
    "Electrode.c118_orientations",
    "Electrode.c118_positive",
    "Electrode.c118_points",
    "Electrode.c118_to_points_counterexample",
    "Electrode.c118_eight_counterexample",
    "Electrode.c118_other"
   ],
   "note": "Proved for all polygon electrodes without cover whose paths run around their regions in one sense, on both sides of the plane (c118_orientations, c118_positive), and for points of positive area (c118_points). The code violates it for points from clockwise paths (c118_to_points_counterexample), and paths without a single sense have no orientation (c118_eight_counterexample). With a cover: C121."
  },
  {
   "property": "C119",
   "status": "partial",
   "theorems": [
    "Electrode.c119_shaped",
    "Electrode.c119_pointwise",
    "Electrode.c119_one_point_counterexample",
    "Electrode.c119_norm",
    "Electrode.c119_norm_axis_counterexample",
    "Electrode.c119_pool",
    "Electrode.c119_pool_pure",
    "Electrode.c119_pool_counterexample",
    "Electrode.c119_minimum",
    "Electrode.c119_import",
    "Electrode.c119_import_twice_counterexample"
   ],
   "note": "Proved: c119_shaped, c119_pointwise, c119_norm for the last axis, c119_pool, c119_pool_pure, c119_minimum, c119_import. The code violates the rest: see the four counterexamples."
  },
  {
   "property": "C120",
   "status": "partial",
   "theorems": [
    "Electrode.c120_norm",
    "Electrode.c120_unit",
    "Electrode.c120_no_axis",
    "Electrode.c120_norm_agree",
    "Electrode.c120_unit_agree",
    "Electrode.c120_out_counterexample",
    "Electrode.c120_vector_counterexample",
    "Electrode.c120_random_numbers",
    "Electrode.c120_random_agree",
    "Electrode.c120_random_counterexample"
   ],
   "note": "Proved for the compiled functions without out in all dimensions (c120_norm, c120_unit), agreement with Python for at least two dimensions (c120_norm_agree, c120_unit_agree), random numbers (c120_random_numbers) and random rotations (c120_random_agree). The code violates the rest: c120_out_counterexample, c120_vector_counterexample, c120_random_counterexample."
  },
  {
   "property": "C121",
   "status": "proved",
   "theorems": [
    "Electrode.c121_polygons",
    "Electrode.c121_points",
    "Electrode.c121_orientations",
    "Electrode.c121_boundary",
    "Electrode.c121_far_counterexample"
   ],
   "note": "c121_polygons, c121_points, c121_orientations, c121_boundary. That the potential with finitely many images is smaller than without cover is not claimed: far away it is false (c121_far_counterexample)."
  },
  {
   "property": "C122",
   "status": "proved",
   "theorems": [
    "Electrode.c122_points",
    "Electrode.c122_relative",
    "Electrode.c122_polygons",
    "Electrode.c122_clear",
    "Electrode.c122_volts",
    "Electrode.c122_system",
    "Electrode.c122_binary"
   ],
   "note": "c122_points, c122_relative, c122_polygons, c122_volts, c122_clear, c122_binary. Also c122_system for whole systems including meshes and covers. Grid electrodes and the pseudopotential are not covered."
  },
  {
   "property": "C123",
   "status": "proved",
   "theorems": [
    "Electrode.c123_solution",
    "Electrode.c123_extremes",
    "Electrode.c123_unique",
    "Electrode.c123_only",
    "Electrode.c123_derivatives",
    "Electrode.c123_system",
    "Electrode.c123_system_only"
   ],
   "note": "c123_solution, c123_unique, c123_only, c123_derivatives, c123_extremes, c123_system, c123_system_only. Point pixels and gridded meshes are not electrodes with a voltage on an area and are left out."
  },
  {
   "property": "C124",
   "status": "proved",
   "theorems": [
    "Electrode.c124_unique",
    "Electrode.c124_error",
    "Electrode.c124_solution",
    "Electrode.c124_system"
   ],
   "note": "c124_unique, c124_solution, c124_error, c124_system."
  },
  {
   "property": "C125",
   "status": "proved",
   "theorems": [
    "Electrode.c125_region",
    "Electrode.c125_instant",
    "Electrode.c125_no_extremum",
    "Electrode.c125_no_extremum_instant",
    "Electrode.c125_no_trap",
    "Electrode.c125_directions",
    "Electrode.c125_modes_sum",
    "Electrode.c125_dc_irrelevant",
    "Electrode.c125_needs_rf",
    "Electrode.c125_total_region",
    "Electrode.c125_total_no_maximum"
   ],
   "note": "c125_region, c125_instant, c125_no_extremum, c125_no_extremum_instant, c125_no_trap, c125_directions, c125_modes_sum, c125_dc_irrelevant, c125_needs_rf, c125_total_region, c125_total_no_maximum. Meshes and grids are included only in the statements about curvatures."
  },
  {
   "property": "C126",
   "status": "proved",
   "theorems": [
    "Electrode.c126_motion",
    "Electrode.c126_rotate_tensor",
    "Electrode.c126_total",
    "Electrode.c126_same",
    "Electrode.c126_symmetric",
    "Electrode.c126_symmetric_total",
    "Electrode.c126_symmetric_values",
    "Electrode.c126_mirror_plane",
    "Electrode.c126_mirror_axes",
    "Electrode.c126_axis",
    "Electrode.c126_axis_round"
   ],
   "note": "c126_motion, c126_rotate_tensor, c126_total for all layouts; c126_same, c126_symmetric, c126_symmetric_total, c126_symmetric_values, c126_mirror_plane, c126_mirror_axes, c126_axis, c126_axis_round for symmetric ones. Meshes and grids are not included."
  },
  {
   "property": "C127",
   "status": "proved",
   "theorems": [
    "Electrode.c127_integral",
    "Electrode.c127_regions",
    "Electrode.c127_corners",
    "Electrode.c127_system",
    "Electrode.c127_pseudo",
    "Electrode.c127_areas",
    "Electrode.c127_gds"
   ],
   "note": "c127_integral, c127_regions, c127_corners for polygon electrodes, c127_areas for point electrodes, c127_system and c127_pseudo for systems, c127_gds for layouts that went through a GDS file."
  },
  {
   "property": "C128",
   "status": "proved",
   "theorems": [
    "Electrode.c128_far",
    "Electrode.c128_fall",
    "Electrode.c128_drop",
    "Electrode.c128_cover",
    "Electrode.c128_images",
    "Electrode.c128_cover_limit",
    "Electrode.c128_extent"
   ],
   "note": "c128_far, c128_fall for one electrode, c128_drop for systems, c128_cover, c128_cover_limit, c128_images for covers; c128_extent: the area in the bounds is the area of the paths if they run counter clockwise."
  },
  {
   "property": "C129",
   "status": "proved",
   "theorems": [
    "Electrode.c129_fields",
    "Electrode.c129_potential",
    "Electrode.c129_units",
    "Electrode.c129_modes",
    "Electrode.c129_mathieu"
   ],
   "note": "c129_fields, c129_potential, c129_units, c129_modes, c129_mathieu. Grid electrodes are data without a shape and are excluded."
  },
  {
   "property": "C130",
   "status": "proved",
   "theorems": [
    "Electrode.c130_unique",
    "Electrode.c130_distance",
    "Electrode.c130_shift",
    "Electrode.c130_exists",
    "Electrode.c130_survives",
    "Electrode.c130_minimum",
    "Electrode.c130_modes",
    "Electrode.c130_near"
   ],
   "note": "c130_unique, c130_distance, c130_minimum, c130_shift, c130_survives, c130_exists, c130_modes, c130_near. twoPixels_well is a trap that meets the hypotheses."
  },
  {
   "property": "C131",
   "status": "proved",
   "theorems": [
    "Electrode.c131_energy",
    "Electrode.c131_confined",
    "Electrode.c131_speed",
    "Electrode.c131_amplitude",
    "Electrode.c131_motion",
    "Electrode.c131_forever",
    "Electrode.c131_well",
    "Electrode.c131_height"
   ],
   "note": "c131_energy, c131_confined, c131_speed, c131_amplitude, c131_motion, c131_forever, c131_well, c131_height. Motion in the pseudopotential; the drive itself is the subject of C73, C74, C89."
  },
  {
   "property": "C132",
   "status": "proved",
   "theorems": [
    "Electrode.c132_scale",
    "Electrode.c132_average",
    "Electrode.c132_stays",
    "Electrode.c132_trapped"
   ],
   "note": "c132_scale, c132_average (with the micromotion), c132_stays (existence in the oscillating field), c132_trapped. The rf voltages are Omega times those of a fixed layout, so that the pseudopotential is fixed."
  },
  {
   "property": "C133",
   "status": "proved",
   "theorems": [
    "Electrode.c133_well",
    "Electrode.c133_potential",
    "Electrode.c133_field",
    "Electrode.c133_derivatives",
    "Electrode.c133_separate",
    "Electrode.c133_errors",
    "Electrode.c133_depth",
    "Electrode.c133_minimum"
   ],
   "note": "c133_potential, c133_field, c133_derivatives, c133_separate, c133_errors, c133_depth, c133_minimum; the ring trap in Props/RingTrap.lean meets the hypotheses of c133_minimum."
  },
  {
   "property": "C134",
   "status": "proved",
   "theorems": [
    "Electrode.c134_instant",
    "Electrode.c134_loop",
    "Electrode.c134_pseudo",
    "Electrode.c134_potential",
    "Electrode.c134_minimum"
   ],
   "note": "c134_pseudo, c134_potential, c134_minimum, c134_loop; the arithmetic is a parameter that c122_binary shows to be met by doubles without underflow and overflow."
  },
  {
   "property": "C135",
   "status": "proved",
   "theorems": [
    "Electrode.c135_electrical",
    "Electrode.c135_total",
    "Electrode.c135_polygons",
    "Electrode.c135_order",
    "Electrode.c135_harmonic"
   ],
   "note": "c135_electrical, c135_total, c135_polygons, c135_order, c135_harmonic."
  },
  {
   "property": "C136",
   "status": "proved",
   "theorems": [
    "Electrode.c136_modes",
    "Electrode.c136_well",
    "Electrode.c136_report",
    "Electrode.c136_driven",
    "Electrode.c136_small"
   ],
   "note": "c136_modes, c136_well, c136_small, c136_report, c136_driven; eigh and argsort are parameters with the contracts of C43."
  },
  {
   "property": "C137",
   "status": "proved",
   "theorems": [
    "Electrode.c137_curvatures",
    "Electrode.c137_monotone",
    "Electrode.c137_directions",
    "Electrode.c137_position",
    "Electrode.c137_voltages",
    "Electrode.c137_minimum",
    "Electrode.c137_report",
    "Electrode.c137_rounding"
   ],
   "note": "c137_curvatures, c137_monotone, c137_directions, c137_position, c137_voltages, c137_minimum, c137_report, c137_rounding; the ring trap and two pixels meet the hypotheses."
  },
  {
   "property": "C138",
   "status": "partial",
   "theorems": [
    "Electrode.c138_offset_partial",
    "Electrode.c138_restored",
    "Electrode.c138_attribute_counterexample",
    "Electrode.c138_restored_counterexample"
   ],
   "note": "c138_offset_partial is for electrodes with the attributes that the constraint uses; the electrodes of the package do not have them (c138_attribute_counterexample), and voltages are not set back after a failure (c138_restored_counterexample; c138_restored otherwise)."
  },
  {
   "property": "C139",
   "status": "proved",
   "theorems": [
    "Electrode.c139_rest",
    "Electrode.c139_stays",
    "Electrode.c139_micromotion",
    "Electrode.c139_compensated",
    "Electrode.c139_stray",
    "Electrode.c139_voltages"
   ],
   "note": ""
  },
  {
   "property": "C140",
   "status": "proved",
   "theorems": [
    "Electrode.c140_follows",
    "Electrode.c140_small",
    "Electrode.c140_harmonics",
    "Electrode.c140_converges"
   ],
   "note": ""
  },
  {
   "property": "C141",
   "status": "proved",
   "theorems": [
    "Electrode.c141_slow",
    "Electrode.c141_micromotion",
    "Electrode.c141_modes",
    "Electrode.c141_frequencies"
   ],
   "note": ""
  },
  {
   "property": "C142",
   "status": "proved",
   "theorems": [
    "Electrode.c142_layout",
    "Electrode.c142_voltages",
    "Electrode.c142_prescribe",
    "Electrode.c142_field",
    "Electrode.c142_field_cover",
    "Electrode.c142_curvature",
    "Electrode.c142_no_extremum",
    "Electrode.c142_pseudo",
    "Electrode.c142_total",
    "Electrode.c142_no_maximum"
   ],
   "note": ""
  },
  {
   "property": "C143",
   "status": "proved",
   "theorems": [
    "Electrode.c143_interpolation",
    "Electrode.c143_resampled",
    "Electrode.c143_generated"
   ],
   "note": ""
  },
  {
   "property": "C144",
   "status": "partial",
   "theorems": [
    "Electrode.c144_conserved_partial",
    "Electrode.c144_driven_partial",
    "Electrode.c144_energy_counterexample"
   ],
   "note": "The sign in trajectory is wrong (C74): motion with its acceleration conserves kinetic energy minus potential (c144_conserved_partial, c144_driven_partial), and energy is not conserved (c144_energy_counterexample)."
  },
  {
   "property": "C145",
   "status": "partial",
   "theorems": [
    "Electrode.c145_knob_partial",
    "Electrode.c145_independent",
    "Electrode.c145_total_partial",
    "Electrode.c145_stays_partial",
    "Electrode.c145_moves_partial",
    "Electrode.c145_small_partial",
    "Electrode.c145_nearby_partial",
    "Electrode.c145_polygons",
    "Electrode.c145_last_counterexample"
   ],
   "note": "Holds for all demanded derivatives but the last one, which optimize ignores (c145_last_counterexample, C38). Existence of the vectors (c145_independent, c145_polygons) and all other parts are proved in full."
  },
  {
   "property": "C146",
   "status": "proved",
   "theorems": [
    "Electrode.c146_succeeds",
    "Electrode.c146_met",
    "Electrode.c146_equilibrium",
    "Electrode.c146_between"
   ],
   "note": ""
  },
  {
   "property": "C147",
   "status": "proved",
   "theorems": [
    "Electrode.c147_whole",
    "Electrode.c147_journey",
    "Electrode.c147_carried",
    "Electrode.c147_wells",
    "Electrode.c147_switch",
    "Electrode.c147_ramp",
    "Electrode.c147_survives",
    "Electrode.c147_straight",
    "Electrode.c147_motion",
    "Electrode.c147_lasts",
    "Electrode.c147_table"
   ],
   "note": ""
  },
  {
   "property": "C148",
   "status": "proved",
   "theorems": [
    "Electrode.c148_holds",
    "Electrode.c148_swing",
    "Electrode.c148_transport",
    "Electrode.c148_carries",
    "Electrode.c148_axes",
    "Electrode.c148_modes",
    "Electrode.c148_found"
   ],
   "note": ""
  }
 ]
}
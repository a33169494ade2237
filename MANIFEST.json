{
 "claims": [
  {
   "property": "C01",
   "status": "proved",
   "theorems": [
    "OpenSBLI.SortDict.C01_order_respects_dependencies",
    "OpenSBLI.SortDict.C01_iteration_order_irrelevant"
   ],
   "note": ""
  },
  {
   "property": "C02",
   "status": "proved",
   "theorems": [
    "OpenSBLI.SortDict.C02_succeeds_iff_resolvable_in_budget",
    "OpenSBLI.SortDict.C02_succeeds_iff_resolvable",
    "OpenSBLI.SortDict.C02_unresolvable_raises",
    "OpenSBLI.SortDict.C02_budget_rejects_resolvable"
   ],
   "note": ""
  },
  {
   "property": "C03",
   "status": "proved",
   "theorems": [
    "OpenSBLI.RK.C03_step_is_third_order_RK",
    "OpenSBLI.RK.C03_linear_amplification"
   ],
   "note": ""
  },
  {
   "property": "C04",
   "status": "proved",
   "theorems": [
    "OpenSBLI.RK.C04_registers_agree",
    "OpenSBLI.RK.C04_stale_work_arrays_irrelevant",
    "OpenSBLI.RK.C04_steady_state_preserved",
    "OpenSBLI.RK.C04_linear_invariants"
   ],
   "note": ""
  },
  {
   "property": "C05",
   "status": "proved",
   "theorems": [
    "OpenSBLI.RK.C05_order3_is_third_order_RK",
    "OpenSBLI.RK.C05_order4_is_fourth_order_RK",
    "OpenSBLI.RK.C05_order4_not_exact",
    "OpenSBLI.RK.C05_stale_register_irrelevant",
    "OpenSBLI.RK.C05_first_coefficient_zero",
    "OpenSBLI.RK.C05_steady_state_preserved",
    "OpenSBLI.RK.C05_linear_invariants",
    "OpenSBLI.RK.C05_linear_amplification",
    "OpenSBLI.RK.C05_ssp_linear_amplification",
    "OpenSBLI.RK.C05_order4_linear_amplification",
    "OpenSBLI.RK.C05_ssp_is_third_order_RK"
   ],
   "note": ""
  },
  {
   "property": "C06",
   "status": "proved",
   "theorems": [
    "OpenSBLI.Weno.C06_candidate_exact_on_polynomials",
    "OpenSBLI.Weno.C06_coefficients_sum_to_one"
   ],
   "note": ""
  },
  {
   "property": "C07",
   "status": "proved",
   "theorems": [
    "OpenSBLI.Weno.C07_weights_unique",
    "OpenSBLI.Weno.C07_weights_merge_candidates",
    "OpenSBLI.Weno.C07_optimal_reconstruction_exact",
    "OpenSBLI.Weno.C07_weights_sum_to_one",
    "OpenSBLI.Weno.C07_weights_positive"
   ],
   "note": ""
  },
  {
   "property": "C08",
   "status": "proved",
   "theorems": [
    "OpenSBLI.Weno.C08_candidate_mirror",
    "OpenSBLI.Weno.C08_coefficients_mirror",
    "OpenSBLI.Weno.C08_points_mirror",
    "OpenSBLI.Weno.C08_weights_mirror",
    "OpenSBLI.Weno.C08_indicator_mirror",
    "OpenSBLI.Weno.C08_reconstruction_mirror"
   ],
   "note": ""
  },
  {
   "property": "C09",
   "status": "proved",
   "theorems": [
    "OpenSBLI.Weno.C09_denominators_positive",
    "OpenSBLI.Weno.C09_weights_convex",
    "OpenSBLI.Weno.C09_weights_defined",
    "OpenSBLI.Weno.C09_reconstruction_between_candidates",
    "OpenSBLI.Weno.C09_constant_exact",
    "OpenSBLI.Weno.C09_equal_indicators_give_linear_weights"
   ],
   "note": ""
  },
  {
   "property": "C10",
   "status": "proved",
   "theorems": [
    "OpenSBLI.Weno.C10_indicator_is_jiang_shu",
    "OpenSBLI.Weno.C10_candidate_polynomial_exists",
    "OpenSBLI.Weno.C10_extraction_in_stencil",
    "OpenSBLI.Weno.C10_indicator_nonneg",
    "OpenSBLI.Weno.C10_indicator_zero_iff_constant"
   ],
   "note": ""
  },
  {
   "property": "C11",
   "status": "partial",
   "theorems": [
    "OpenSBLI.Teno.C11_cutoff_sharp",
    "OpenSBLI.Teno.C11_weights_convex",
    "OpenSBLI.Teno.C11_weight_zero_iff_cut",
    "OpenSBLI.Teno.C11_all_survive_linear",
    "OpenSBLI.Teno.C11_equal_indicators_linear",
    "OpenSBLI.Teno.C11_between_candidates_partial",
    "OpenSBLI.Teno.C11_constant_exact",
    "OpenSBLI.Teno.C11_adaptive_cutoff_valid",
    "OpenSBLI.Teno.C11_adaptive_cutoff_monotone",
    "OpenSBLI.Teno.C11_large_cutoff_divides_by_zero",
    "OpenSBLI.Teno.C11_six_reference_nonzero_on_linear",
    "OpenSBLI.Teno.C11_five_shock_not_cut",
    "OpenSBLI.Teno.C11_weights_any_data_partial",
    "OpenSBLI.Teno.C11_between_any_data_partial"
   ],
   "note": "C11_weights_any_data_partial, C11_between_any_data_partial: all data, both orders and both sides, although the indicator of order 6 can be negative (C13_six_right_indicator_negative). Missing: the data for which order 6 divides by zero (C13_six_zero_denominator)."
  },
  {
   "property": "C12",
   "status": "partial",
   "theorems": [
    "OpenSBLI.Teno.C12_candidate_exact",
    "OpenSBLI.Teno.C12_linear_weights_sum_to_one",
    "OpenSBLI.Teno.C12_linear_weights_positive",
    "OpenSBLI.Teno.C12_linear_scheme_exact_partial",
    "OpenSBLI.Teno.C12_five_not_fifth_order",
    "OpenSBLI.Teno.C12_six_not_sixth_order"
   ],
   "note": "The design order claimed by the code is not met: the linear schemes are exact one degree lower (C12_linear_scheme_exact_partial), and C12_five_not_fifth_order / C12_six_not_sixth_order prove the full claim false."
  },
  {
   "property": "C13",
   "status": "partial",
   "theorems": [
    "OpenSBLI.Teno.C13_indicator_is_jiang_shu_partial",
    "OpenSBLI.Teno.C13_indicator_nonneg_partial",
    "OpenSBLI.Teno.C13_indicator_constant",
    "OpenSBLI.Teno.C13_indicator_mirror_partial",
    "OpenSBLI.Teno.C13_candidate_mirror",
    "OpenSBLI.Teno.C13_six_right_indicator_negative",
    "OpenSBLI.Teno.C13_six_zero_denominator",
    "OpenSBLI.Teno.C13_six_mirror_fails",
    "OpenSBLI.Teno.C13_five_reconstruction_mirror"
   ],
   "note": "Holds for every indicator except the right-biased order 6 one, which misses a square; the negation is proved with witnesses."
  },
  {
   "property": "C14",
   "status": "proved",
   "theorems": [
    "OpenSBLI.Llf.C14_telescoping",
    "OpenSBLI.Llf.C14_periodic_residual_sum",
    "OpenSBLI.Llf.C14_periodic_conservation"
   ],
   "note": ""
  },
  {
   "property": "C15",
   "status": "proved",
   "theorems": [
    "OpenSBLI.Llf.C15_split_sum",
    "OpenSBLI.Llf.C15_max_wave_speed",
    "OpenSBLI.Llf.C15_stencil_local",
    "OpenSBLI.Llf.C15_stencil_points",
    "OpenSBLI.Llf.C15_uniform_flux",
    "OpenSBLI.Llf.C15_upwind_linear",
    "OpenSBLI.Llf.C15_split_speeds",
    "OpenSBLI.Llf.C15_uniform_euler_3d"
   ],
   "note": ""
  },
  {
   "property": "C16",
   "status": "proved",
   "theorems": [
    "OpenSBLI.Euler.C16_inverse_1d",
    "OpenSBLI.Euler.C16_inverse_2d",
    "OpenSBLI.Euler.C16_inverse_3d",
    "OpenSBLI.Euler.C16_eigenvectors_1d",
    "OpenSBLI.Euler.C16_eigenvectors_2d",
    "OpenSBLI.Euler.C16_eigenvectors_3d",
    "OpenSBLI.Euler.C16_jacobian_1d",
    "OpenSBLI.Euler.C16_jacobian_2d",
    "OpenSBLI.Euler.C16_jacobian_3d"
   ],
   "note": ""
  },
  {
   "property": "C17",
   "status": "proved",
   "theorems": [
    "OpenSBLI.Llf.C17_simple_average",
    "OpenSBLI.Llf.C17_roe_consistent",
    "OpenSBLI.Llf.C17_roe_symmetric",
    "OpenSBLI.Llf.C17_roe_between",
    "OpenSBLI.Llf.C17_roe_sound_speed_positive",
    "OpenSBLI.Llf.C17_roe_property_3d",
    "OpenSBLI.Llf.C17_roe_property_2d",
    "OpenSBLI.Llf.C17_roe_property_1d"
   ],
   "note": ""
  },
  {
   "property": "C18",
   "status": "proved",
   "theorems": [
    "OpenSBLI.Central.C18_exact",
    "OpenSBLI.Central.C18_parity",
    "OpenSBLI.Central.C18_annihilates_constants",
    "OpenSBLI.Central.C18_even_exact",
    "OpenSBLI.Central.C18_points_in_halo",
    "OpenSBLI.Central.C18_fourth_order_weights"
   ],
   "note": ""
  },
  {
   "property": "C19",
   "status": "proved",
   "theorems": [
    "OpenSBLI.Central.C19_sum_zero",
    "OpenSBLI.Central.C19_adjoint",
    "OpenSBLI.Central.C19_skew_conservative",
    "OpenSBLI.Central.C19_skew_energy",
    "OpenSBLI.Central.C19_skew_energy_conserved",
    "OpenSBLI.Central.C19_periodic_conservation"
   ],
   "note": ""
  },
  {
   "property": "C20",
   "status": "partial",
   "theorems": [
    "OpenSBLI.Central.C20_equivalent_partial",
    "OpenSBLI.Central.C20_rejected",
    "OpenSBLI.Central.C20_three_factors_rejected",
    "OpenSBLI.Central.C20_single_symbol_rejected",
    "OpenSBLI.Central.C20_power_wrong",
    "OpenSBLI.Central.C20_sum_wrong"
   ],
   "note": "Proved for products of two factors and single function applications; rejection characterised. The full claim is false for powers and sums: C20_power_wrong and C20_sum_wrong are concrete witnesses."
  },
  {
   "property": "C21",
   "status": "proved",
   "theorems": [
    "OpenSBLI.Closure.C21_exact_everywhere",
    "OpenSBLI.Closure.C21_norm_positive",
    "OpenSBLI.Closure.C21_summation_by_parts",
    "OpenSBLI.Closure.C21_energy_rate",
    "OpenSBLI.Closure.C21_conservation"
   ],
   "note": ""
  },
  {
   "property": "C22",
   "status": "partial",
   "theorems": [
    "OpenSBLI.Closure.C22_exact_partial",
    "OpenSBLI.Closure.C22_reduced_order_right_second_wrong",
    "OpenSBLI.Closure.C22_mirror"
   ],
   "note": "Exact on both sides for all closures except the reduced order second derivative at the right end, which has the wrong sign (C22_reduced_order_right_second_wrong)."
  },
  {
   "property": "C23",
   "status": "partial",
   "theorems": [
    "OpenSBLI.Closure.C23_left_points",
    "OpenSBLI.Closure.C23_right_points",
    "OpenSBLI.Closure.C23_interior_points",
    "OpenSBLI.Closure.C23_unsupported_order",
    "OpenSBLI.Closure.C23_no_closure",
    "OpenSBLI.Closure.C23_in_domain_partial",
    "OpenSBLI.Closure.C23_wide_interior_leaks"
   ],
   "note": "Selection of formulas is fully characterised. Reads stay inside the domain exactly when the interior stencil is not wider than the number of closed points (C23_in_domain_partial); otherwise they leak (C23_wide_interior_leaks)."
  },
  {
   "property": "C24",
   "status": "partial",
   "theorems": [
    "OpenSBLI.Ranges.C24_periodic_image",
    "OpenSBLI.Ranges.C24_block_periodic_partial",
    "OpenSBLI.Ranges.C24_interior_unchanged",
    "OpenSBLI.Ranges.C24_asymmetric_halo_not_filled",
    "OpenSBLI.Ranges.C24_direction_dependent_halos_wrong"
   ],
   "note": "Proved for every grid, dimension and halo depth when all directions request the same depth (also the first layers for asymmetric WENO halos). The code uses direction 0's depth everywhere and the lower depth for upper halos: C24_direction_dependent_halos_wrong, C24_asymmetric_halo_not_filled."
  },
  {
   "property": "C25",
   "status": "partial",
   "theorems": [
    "OpenSBLI.Bc.C25_symmetry",
    "OpenSBLI.Bc.C25_symmetry_frame",
    "OpenSBLI.Bc.C25_mirror_unique",
    "OpenSBLI.Bc.C25_mirror_involution",
    "OpenSBLI.Bc.C25_mirror_energy",
    "OpenSBLI.Bc.C25_symmetry_gas_state",
    "OpenSBLI.Bc.C25_inviscid_wall",
    "OpenSBLI.Bc.C25_wall_tangential_partial",
    "OpenSBLI.Bc.C25_wall_not_tangential"
   ],
   "note": "Symmetry and mirror formulas proved for every dimension and halo depth. The inviscid wall removes the normal momentum with the metric of the interior point: tangency at the wall is proved when the metric is the same at both points (C25_wall_tangential_partial) and refuted otherwise (C25_wall_not_tangential)."
  },
  {
   "property": "C26",
   "status": "proved",
   "theorems": [
    "OpenSBLI.Bc.C26_zeroth_order",
    "OpenSBLI.Bc.C26_first_order",
    "OpenSBLI.Bc.C26_other_orders_rejected",
    "OpenSBLI.Bc.C26_zero_gradient"
   ],
   "note": ""
  },
  {
   "property": "C27",
   "status": "proved",
   "theorems": [
    "OpenSBLI.Bc.C27_no_slip",
    "OpenSBLI.Bc.C27_wall_temperature",
    "OpenSBLI.Bc.C27_halo",
    "OpenSBLI.Bc.C27_frame",
    "OpenSBLI.Bc.C27_isothermal_wall",
    "OpenSBLI.Bc.C27_negative_density"
   ],
   "note": ""
  },
  {
   "property": "C28",
   "status": "proved",
   "theorems": [
    "OpenSBLI.Bc.C28_one_sided_exact",
    "OpenSBLI.Bc.C28_halo",
    "OpenSBLI.Bc.C28_wall",
    "OpenSBLI.Bc.C28_carpenter_wall",
    "OpenSBLI.Bc.C28_carpenter_exact"
   ],
   "note": ""
  },
  {
   "property": "C29",
   "status": "partial",
   "theorems": [
    "OpenSBLI.Bc.C29_pressure_outlet",
    "OpenSBLI.Bc.C29_wrong_side_rejected",
    "OpenSBLI.Bc.C29_inlet_transfer",
    "OpenSBLI.Bc.C29_inlet_pressure",
    "OpenSBLI.Bc.C29_inlet_halo_pressure_partial",
    "OpenSBLI.Bc.C29_inlet_halo_pressure_wrong",
    "OpenSBLI.Bc.C29_inlet_lawal"
   ],
   "note": "Outlet, transfer and isentropic inlets proved. The pressure-extrapolation inlet copies total energy, so the halo pressure equals the boundary pressure only when density and momentum agree (C29_inlet_halo_pressure_partial); C29_inlet_halo_pressure_wrong refutes the general claim."
  },
  {
   "property": "C30",
   "status": "partial",
   "theorems": [
    "OpenSBLI.MultiBlock.C30_interface_partial",
    "OpenSBLI.MultiBlock.C30_three_entries_upper_partial",
    "OpenSBLI.MultiBlock.C30_three_entries_lower_reversed",
    "OpenSBLI.MultiBlock.C30_rotated_not_filled",
    "OpenSBLI.MultiBlock.C30_asymmetric_upper_wrong"
   ],
   "note": "Proved for blocks whose directions are aligned and whose orientation is given explicitly. Refuted elsewhere: the three-entry match uses the side as the flip flag (layers reversed for a lower donor side), rotated blocks are not filled, asymmetric halo depths on upper-upper faces are wrong."
  },
  {
   "property": "C31",
   "status": "proved",
   "theorems": [
    "OpenSBLI.Ranges.C31_boundary_plane",
    "OpenSBLI.Ranges.C31_sides_disjoint"
   ],
   "note": ""
  },
  {
   "property": "C32",
   "status": "partial",
   "theorems": [
    "OpenSBLI.Ker.C32_match_iff",
    "OpenSBLI.Ker.C32_mixed_mismatch",
    "OpenSBLI.Ker.C32_access_number",
    "OpenSBLI.Ker.C32_indexed_by_symbol",
    "OpenSBLI.Ker.C32_literal_index_doubled",
    "OpenSBLI.Ker.C32_duplicate_parameter",
    "OpenSBLI.Ker.C32_index_passed_if_needed",
    "OpenSBLI.Ker.C32_global_passed_if_needed",
    "OpenSBLI.Ker.C32_indexed_constant_passed_if_needed"
   ],
   "note": "Proved exactly when the argument lists agree (C32_match_iff): always, unless a kernel uses both indexed constants and globals (C32_mixed_mismatch). Literal indices and duplicate parameters are refuted separately."
  },
  {
   "property": "C33",
   "status": "partial",
   "theorems": [
    "OpenSBLI.Ker.C33_modes",
    "OpenSBLI.Ker.C33_read_only_unchanged",
    "OpenSBLI.Ker.C33_write_only_not_read",
    "OpenSBLI.Ker.C33_conditional_write_keeps_old",
    "OpenSBLI.Ker.C33_global_output_read_only"
   ],
   "note": "Soundness of read, write and read-write modes proved for all equation lists, except that a conditional write is passed as write-only although it keeps the old value (C33_conditional_write_keeps_old) and written globals are passed read-only (C33_global_output_read_only)."
  },
  {
   "property": "C34",
   "status": "proved",
   "theorems": [
    "OpenSBLI.Ker.C34_writes_within_stencil",
    "OpenSBLI.Ker.C34_reads_within_stencil",
    "OpenSBLI.Reg.C34_stencil_is_accesses",
    "OpenSBLI.Reg.C34_stencil_names_unique",
    "OpenSBLI.Reg.C34_stencil_covers_accesses",
    "OpenSBLI.Reg.C34_declared_array"
   ],
   "note": ""
  },
  {
   "property": "C35",
   "status": "proved",
   "theorems": [
    "OpenSBLI.Ranges.C35_smallest_range",
    "OpenSBLI.Ranges.C35_order_independent"
   ],
   "note": ""
  },
  {
   "property": "C36",
   "status": "partial",
   "theorems": [
    "OpenSBLI.Mem.C36_central_iff",
    "OpenSBLI.Mem.C36_central_same_direction",
    "OpenSBLI.Mem.C36_pointwise",
    "OpenSBLI.Mem.C36_weno_iff",
    "OpenSBLI.Mem.C36_teno",
    "OpenSBLI.Mem.C36_flux_difference",
    "OpenSBLI.Mem.C36_boundary",
    "OpenSBLI.Mem.C36_residual_name",
    "OpenSBLI.Mem.C36_halos_by_name"
   ],
   "note": "Exact characterisation: accesses are in bounds iff the order is at most 11 (central) or 7 (WENO); counterexamples for higher orders, nested same-direction derivatives and arrays named *Residual*."
  },
  {
   "property": "C37",
   "status": "proved",
   "theorems": [
    "OpenSBLI.Ker.C37_order_independent",
    "OpenSBLI.Ker.C37_simultaneous",
    "OpenSBLI.Ker.C37_pointwise_kernels",
    "OpenSBLI.Ker.C37_boundary_kernels",
    "OpenSBLI.Ker.C37_in_place_order_dependent"
   ],
   "note": ""
  },
  {
   "property": "C38",
   "status": "proved",
   "theorems": [
    "OpenSBLI.Reg.C38_declared_once",
    "OpenSBLI.Reg.C38_first_registration_wins",
    "OpenSBLI.Reg.C38_declared_before_use",
    "OpenSBLI.Reg.C38_values_in_program",
    "OpenSBLI.Reg.C38_use_before_declaration"
   ],
   "note": "Declared before use is conditional on registration order; C38_use_before_declaration shows the condition is needed."
  },
  {
   "property": "C39",
   "status": "partial",
   "theorems": [
    "OpenSBLI.Reg.C39_declared_with_value",
    "OpenSBLI.Reg.C39_same_name_iff_same_value",
    "OpenSBLI.Reg.C39_user_constant_collision"
   ],
   "note": "Proved for every printing history when no user constant is named like a generated one; C39_user_constant_collision refutes the claim without that condition."
  },
  {
   "property": "C40",
   "status": "proved",
   "theorems": [
    "OpenSBLI.Text.C40_line_preserves_words",
    "OpenSBLI.Text.C40_file_preserves_words",
    "OpenSBLI.Text.C40_nonblank_characters",
    "OpenSBLI.Text.C40_short_lines",
    "OpenSBLI.Text.C40_line_length"
   ],
   "note": ""
  },
  {
   "property": "C41",
   "status": "proved",
   "theorems": [
    "OpenSBLI.Text.C41_nested_maximum"
   ],
   "note": ""
  },
  {
   "property": "C42",
   "status": "partial",
   "theorems": [
    "OpenSBLI.Alg.C42_run_partial",
    "OpenSBLI.Alg.C42_sorted",
    "OpenSBLI.Alg.C42_sort_stable",
    "OpenSBLI.Alg.C42_generation_succeeds_iff",
    "OpenSBLI.Alg.C42_boundary_values_fresh",
    "OpenSBLI.Alg.C42_two_systems_lose_kernels"
   ],
   "note": "Proved for every block with one system of simulation equations (any other equation classes, outputs, steps, stages); C42_two_systems_lose_kernels refutes it for two systems on one block."
  },
  {
   "property": "C43",
   "status": "proved",
   "theorems": [
    "OpenSBLI.Alg.C43_periodic_output",
    "OpenSBLI.Alg.C43_number_of_outputs",
    "OpenSBLI.Alg.C43_saved_state",
    "OpenSBLI.Alg.C43_final_output_only",
    "OpenSBLI.Alg.C43_reading_writes_nothing",
    "OpenSBLI.Alg.C43_file_names_differ",
    "OpenSBLI.Alg.C43_named_periodic_output_raises",
    "OpenSBLI.Alg.C43_declarations_partial",
    "OpenSBLI.Alg.C43_two_unnamed_outputs_clash"
   ],
   "note": "Iterations, counts, file names and saved states proved for all inputs; named periodic output raises and two unnamed outputs declare one variable twice (both characterised exactly)."
  },
  {
   "property": "C44",
   "status": "proved",
   "theorems": [
    "OpenSBLI.Alg.C44_kernels_emitted_once",
    "OpenSBLI.Alg.C44_called_kernels_are_defined"
   ],
   "note": ""
  },
  {
   "property": "C45",
   "status": "partial",
   "theorems": [
    "OpenSBLI.Text.C45_exact",
    "OpenSBLI.Text.C45_last_value_wins",
    "OpenSBLI.Text.C45_own_value_partial",
    "OpenSBLI.Text.C45_suffix_collision"
   ],
   "note": "Exact behaviour proved for all files; the intended claim holds when no substituted name is a proper suffix of a declared name and fails otherwise (C45_suffix_collision)."
  },
  {
   "property": "C46",
   "status": "partial",
   "theorems": [
    "OpenSBLI.Reg.C46_kernel_names_unique",
    "OpenSBLI.Reg.C46_one_name_per_kernel",
    "OpenSBLI.Reg.C46_reset_duplicates"
   ],
   "note": "Proved for every history without a counter reset; C46_reset_duplicates shows that resetting the counter, which the API offers, gives two kernels one name."
  },
  {
   "property": "C47",
   "status": "partial",
   "theorems": [
    "OpenSBLI.Res.C47_central_partial",
    "OpenSBLI.Res.C47_weno",
    "OpenSBLI.Res.C47_hybrid_partial",
    "OpenSBLI.Res.C47_stale_residual",
    "OpenSBLI.Res.C47_source_dropped",
    "OpenSBLI.Res.C47_function_dropped",
    "OpenSBLI.Res.C47_bare_dropped",
    "OpenSBLI.Res.C47_source_twice",
    "OpenSBLI.Res.C47_overwritten",
    "OpenSBLI.Res.C47_scheme_order"
   ],
   "note": "Proved: residuals equal the sum of all discretised terms for the central scheme alone, a shock capturing scheme alone, and the usual pair, under conditions on where derivatives and Re occur. The general claim is false; the seven findings prove the exceptions (stale residual, dropped source terms, double counting, overwriting, scheme order)."
  },
  {
   "property": "C48",
   "status": "partial",
   "theorems": [
    "OpenSBLI.Work.C48_convective",
    "OpenSBLI.Work.C48_viscous_partial",
    "OpenSBLI.Work.C48_same_direction",
    "OpenSBLI.Work.C48_substitution_order",
    "OpenSBLI.Work.C48_replacement"
   ],
   "note": "Proved: convective work arrays for any groups and start index; sorted viscous kernels when inner derivatives have fewer directions; replacement never changes values. False in general: same-direction nesting reads stale arrays, and the substitution order may leave a derivative in place (both proved)."
  },
  {
   "property": "C49",
   "status": "proved",
   "theorems": [
    "OpenSBLI.Ein.C49_value_unique",
    "OpenSBLI.Ein.C49_summation",
    "OpenSBLI.Ein.C49_equations",
    "OpenSBLI.Ein.C49_rejected",
    "OpenSBLI.Ein.C49_order_arbitrary"
   ],
   "note": "Expansion of index notation against a separately stated meaning; symbols, sums, products, two-argument functions. The order of the free indices is that of a set (finding)."
  },
  {
   "property": "C50",
   "status": "partial",
   "theorems": [
    "OpenSBLI.Ein.C50_apply_index",
    "OpenSBLI.Ein.C50_all_indices",
    "OpenSBLI.Ein.C50_distinct",
    "OpenSBLI.Ein.C50_prefix_capture",
    "OpenSBLI.Ein.C50_collision"
   ],
   "note": "Proved when no index name of a term begins with another index name. False otherwise, and names of components of different terms may collide (both proved)."
  },
  {
   "property": "C51",
   "status": "proved",
   "theorems": [
    "OpenSBLI.Tensor.C51_delta",
    "OpenSBLI.Tensor.C51_delta_contraction",
    "OpenSBLI.Tensor.C51_delta_trace",
    "OpenSBLI.Tensor.C51_delta_product",
    "OpenSBLI.Tensor.C51_antisymmetric",
    "OpenSBLI.Tensor.C51_sign",
    "OpenSBLI.Tensor.C51_epsilon_delta",
    "OpenSBLI.Tensor.C51_epsilon_epsilon",
    "OpenSBLI.Tensor.C51_cross_product",
    "OpenSBLI.Tensor.C51_determinant"
   ],
   "note": ""
  },
  {
   "property": "C52",
   "status": "proved",
   "theorems": [
    "OpenSBLI.Filters.C52_exact_flow",
    "OpenSBLI.Filters.C52_invariants",
    "OpenSBLI.Filters.C52_local",
    "OpenSBLI.Filters.C52_steady_iff",
    "OpenSBLI.Filters.C52_limit",
    "OpenSBLI.Filters.C52_initial"
   ],
   "note": ""
  },
  {
   "property": "C53",
   "status": "partial",
   "theorems": [
    "OpenSBLI.Filters.C53_accepted_iff",
    "OpenSBLI.Filters.C53_weights",
    "OpenSBLI.Filters.C53_preserves_linear",
    "OpenSBLI.Filters.C53_maximum_principle",
    "OpenSBLI.Filters.C53_response",
    "OpenSBLI.Filters.C53_response_bounds",
    "OpenSBLI.Filters.C53_checkerboard",
    "OpenSBLI.Filters.C53_condition",
    "OpenSBLI.Filters.C53_negative_order",
    "OpenSBLI.Filters.C53_order_dependence",
    "OpenSBLI.Filters.C53_in_place_partial",
    "OpenSBLI.Filters.C53_in_place_linear",
    "OpenSBLI.Filters.C53_in_place_maximum",
    "OpenSBLI.Filters.C53_in_place_frame"
   ],
   "note": "Constant and linear fields (C53_in_place_linear) and the maximum principle (C53_in_place_maximum) are proved for the emitted kernel, which overwrites the array it reads, for all orders of the points; the response to waves is proved for simultaneous update. The result does depend on the order of the points (C53_order_dependence), which refutes the last sentence of the claim; C53_in_place_partial says what the first point visited gets."
  },
  {
   "property": "C54",
   "status": "proved",
   "theorems": [
    "OpenSBLI.Weno.C54_weno_sensor_bounds",
    "OpenSBLI.Filters.C54_defined_iff",
    "OpenSBLI.Filters.C54_range",
    "OpenSBLI.Filters.C54_compression_expansion",
    "OpenSBLI.Filters.C54_rotation",
    "OpenSBLI.Filters.C54_mach_control",
    "OpenSBLI.Filters.C54_mach_number",
    "OpenSBLI.Filters.C54_largest_nearby",
    "OpenSBLI.Filters.C54_wall_zone",
    "OpenSBLI.Filters.C54_application"
   ],
   "note": ""
  },
  {
   "property": "C55",
   "status": "partial",
   "theorems": [
    "OpenSBLI.Metric.C55_inverse",
    "OpenSBLI.Metric.C55_first_derivative",
    "OpenSBLI.Metric.C55_second_derivative",
    "OpenSBLI.Metric.C55_interface_signs",
    "OpenSBLI.Metric.C55_nested_order",
    "OpenSBLI.Metric.C55_equation_partial"
   ],
   "note": "Proved: metric terms are the inverse Jacobian for every pattern of flags and any dimension; first and second derivative transformation; interface signs; equations without nested derivatives. False for nested derivatives (order of a set), proved as finding."
  },
  {
   "property": "C56",
   "status": "partial",
   "theorems": [
    "OpenSBLI.Util.C56_rankine_hugoniot",
    "OpenSBLI.Util.C56_primitive",
    "OpenSBLI.Util.C56_compression_iff",
    "OpenSBLI.Util.C56_post_mach",
    "OpenSBLI.Util.C56_temperature",
    "OpenSBLI.Util.C56_check_units",
    "OpenSBLI.Util.C56_check_partial",
    "OpenSBLI.Util.C56_velocity_not_scaled"
   ],
   "note": "The jump conditions, the Mach number and the temperature are proved for free-stream velocity one. The acceptance check compares degrees with radians (C56_check_units) and the pressure is not scaled for other velocities (C56_velocity_not_scaled)."
  },
  {
   "property": "C57",
   "status": "proved",
   "theorems": [
    "OpenSBLI.Util.C57_second_derivatives",
    "OpenSBLI.Util.C57_bisection",
    "OpenSBLI.Util.C57_interpolant",
    "OpenSBLI.Util.C57_duplicate_knots"
   ],
   "note": ""
  },
  {
   "property": "C58",
   "status": "partial",
   "theorems": [
    "OpenSBLI.Hdf5.C58_interior_partial",
    "OpenSBLI.Hdf5.C58_one_dimension",
    "OpenSBLI.Hdf5.C58_metadata_two",
    "OpenSBLI.Hdf5.C58_round_trip_two",
    "OpenSBLI.Hdf5.C58_three_rejected",
    "OpenSBLI.Hdf5.C58_three_truncated",
    "OpenSBLI.Hdf5.C58_one_metadata"
   ],
   "note": "Proved: exactly the interior is read iff lower and upper halo depths agree (2D, 3D). Findings: one dimension raises, three dimensional metadata describes two directions only."
  },
  {
   "property": "C59",
   "status": "partial",
   "theorems": [
    "OpenSBLI.Setup.C59_accepted_iff",
    "OpenSBLI.Setup.C59_assigned_pairwise",
    "OpenSBLI.Setup.C59_applied_in_order",
    "OpenSBLI.Setup.C59_every_face_partial",
    "OpenSBLI.Setup.C59_order_not_checked"
   ],
   "note": "Pairing and length check proved; a condition's own direction and side are never compared with its position (C59_order_not_checked)."
  },
  {
   "property": "C60",
   "status": "proved",
   "theorems": [
    "OpenSBLI.Setup.C60_sorted",
    "OpenSBLI.Setup.C60_constituent_relations_first",
    "OpenSBLI.Setup.C60_constituent_order_reversed"
   ],
   "note": ""
  },
  {
   "property": "C61",
   "status": "partial",
   "theorems": [
    "OpenSBLI.Bc.C61_increment_single_location",
    "OpenSBLI.Bc.C61_increment_captures"
   ],
   "note": "Proved for expressions whose accesses sit at one location along the direction; with several locations the sequential replacement captures already moved accesses (C61_increment_captures)."
  },
  {
   "property": "C62",
   "status": "partial",
   "theorems": [
    "OpenSBLI.Mem.C62_central_partial",
    "OpenSBLI.Mem.C62_pointwise",
    "OpenSBLI.Mem.C62_reconstruction",
    "OpenSBLI.Mem.C62_reconstruction_tight",
    "OpenSBLI.Mem.C62_same_direction"
   ],
   "note": "Proved for single-level central, pointwise and reconstruction kernels; C62_same_direction refutes it for nested derivatives in one direction."
  },
  {
   "property": "C63",
   "status": "partial",
   "theorems": [
    "OpenSBLI.Mem.C63_inner_covers_outer_partial",
    "OpenSBLI.Mem.C63_sum_of_inner_derivatives",
    "OpenSBLI.Mem.C63_three_levels"
   ],
   "note": "Proved for two-level nestings with a single inner derivative direction sequence; sums of inner derivatives and three levels are refuted by witnesses."
  },
  {
   "property": "C64",
   "status": "partial",
   "theorems": [
    "OpenSBLI.Bc.C64_wall_momentum",
    "OpenSBLI.Bc.C64_wall_temperature_partial",
    "OpenSBLI.Bc.C64_forced_wall_too_cold",
    "OpenSBLI.Bc.C64_halo",
    "OpenSBLI.Bc.C64_frame",
    "OpenSBLI.Bc.C64_halo_not_about_wall_velocity"
   ],
   "note": "Proved: momenta, halo pressure/mirror relations, frame. False: where the strip is forced the wall is colder than prescribed, and the halo velocities average to zero instead of the prescribed wall velocity (both proved)."
  },
  {
   "property": "C65",
   "status": "partial",
   "theorems": [
    "OpenSBLI.Ranges.C65_dirichlet_points",
    "OpenSBLI.Ranges.C65_dirichlet_fills_halos",
    "OpenSBLI.Ranges.C65_dirichlet_values",
    "OpenSBLI.Ranges.C65_split_points",
    "OpenSBLI.Ranges.C65_split_partition",
    "OpenSBLI.Ranges.C65_split_names_distinct",
    "OpenSBLI.Ranges.C65_split_blocks_share_range"
   ],
   "note": "Proved on one block for all sizes and segmentations. False across blocks: range arrays of split boundaries carry no block number and are shared (proved)."
  },
  {
   "property": "C66",
   "status": "partial",
   "theorems": [
    "OpenSBLI.Iw2.C66_wall_tangential",
    "OpenSBLI.Iw2.C66_wall_pressure",
    "OpenSBLI.Iw2.C66_halo_linear",
    "OpenSBLI.Iw2.C66_uniform_flow_preserved",
    "OpenSBLI.Iw2.C66_foot_of_normal_partial",
    "OpenSBLI.Iw2.C66_falling_wall_wrong",
    "OpenSBLI.Iw2.C66_horizontal_lines_wrong"
   ],
   "note": "Proved: impermeability, wall pressure, linear halos, uniform flow; foot of the normal for rising walls. False for falling walls and for walls of direction 0 with slanted lines (both proved)."
  },
  {
   "property": "C67",
   "status": "partial",
   "theorems": [
    "OpenSBLI.Phys.C67_pressure",
    "OpenSBLI.Phys.C67_temperature",
    "OpenSBLI.Phys.C67_equation_of_state",
    "OpenSBLI.Phys.C67_velocity_momentum",
    "OpenSBLI.Phys.C67_sound_speed_partial",
    "OpenSBLI.Phys.C67_sound_speed_wrong",
    "OpenSBLI.Phys.C67_vector_names",
    "OpenSBLI.Phys.C67_viscosity_is_momentum"
   ],
   "note": "Proved except: the speed of sound relation is the square of the speed of sound, and the viscosity accessor returns the momentum components (both proved)."
  },
  {
   "property": "C68",
   "status": "partial",
   "theorems": [
    "OpenSBLI.Mon.C68_probe_value",
    "OpenSBLI.Mon.C68_printed_row",
    "OpenSBLI.Mon.C68_placeholders_match",
    "OpenSBLI.Mon.C68_printed_expressions",
    "OpenSBLI.Mon.C68_mismatch_rejected",
    "OpenSBLI.Mon.C68_names_unique",
    "OpenSBLI.Mon.C68_header_columns_partial",
    "OpenSBLI.Mon.C68_header_misaligned",
    "OpenSBLI.Mon.C68_one_dimensional_tuple",
    "OpenSBLI.Mon.C68_probe_location",
    "OpenSBLI.Mon.C68_output_to_screen_fails"
   ],
   "note": "Proved: values for every distribution over processes, rows, names, placeholders. False: header columns for tuple probes, one dimensional tuples, output to the screen (all proved)."
  },
  {
   "property": "C69",
   "status": "partial",
   "theorems": [
    "OpenSBLI.Store.C69_kernels",
    "OpenSBLI.Store.C69_residual_partial",
    "OpenSBLI.Store.C69_storing_irrelevant",
    "OpenSBLI.Store.C69_no_derivative_left",
    "OpenSBLI.Store.C69_all_stored",
    "OpenSBLI.Store.C69_advection_lost",
    "OpenSBLI.Store.C69_viscous_dropped",
    "OpenSBLI.Store.C69_unstored_inner_left",
    "OpenSBLI.Store.C69_second_use_fails",
    "OpenSBLI.Store.C69_constituents"
   ],
   "note": "Proved for equations whose convective and viscous parts each keep a derivative that is not stored. False otherwise: with every derivative stored no residual kernel is generated; a part with only stored derivatives is dropped; an unstored derivative inside another stays undiscretised; the scheme object works once (all proved)."
  },
  {
   "property": "C70",
   "status": "partial",
   "theorems": [
    "OpenSBLI.User.C70_exact",
    "OpenSBLI.User.C70_meaning_partial",
    "OpenSBLI.User.C70_plain_dropped",
    "OpenSBLI.User.C70_halos_ignored",
    "OpenSBLI.User.C70_nested_stale",
    "OpenSBLI.User.C70_points"
   ],
   "note": "Exact description of what is computed; holds when all or none of the equations have derivatives. Equations without derivatives are dropped when another one has them; halos are then ignored; nested derivatives depend on set order."
  },
  {
   "property": "C71",
   "status": "partial",
   "theorems": [
    "OpenSBLI.User.C71_meaning_partial",
    "OpenSBLI.User.C71_frozen_exact",
    "OpenSBLI.User.C71_frozen",
    "OpenSBLI.User.C71_no_derivative_nothing",
    "OpenSBLI.User.C71_unevaluated_relation",
    "OpenSBLI.User.C71_relations_hold_partial",
    "OpenSBLI.User.C71_relation_order"
   ],
   "note": "Proved when there is a derivative, derivatives do not involve arrays of the class, and the dictionary lists relations in dependency order; the other cases are shown to fail."
  },
  {
   "property": "C72",
   "status": "partial",
   "theorems": [
    "OpenSBLI.User.C72_points",
    "OpenSBLI.User.C72_memory_partial",
    "OpenSBLI.User.C72_values",
    "OpenSBLI.User.C72_outside_memory"
   ],
   "note": "Proved for arrays with halos. Arrays whose name makes them be declared without halos are written outside their memory (C72_outside_memory)."
  },
  {
   "property": "C73",
   "status": "partial",
   "theorems": [
    "OpenSBLI.Alg.C73_run",
    "OpenSBLI.Alg.C73_generation_succeeds_iff",
    "OpenSBLI.Alg.C73_metrics_after_equations",
    "OpenSBLI.MultiBlock.C73_interfaces_partial",
    "OpenSBLI.MultiBlock.C73_corner_stale",
    "OpenSBLI.MultiBlock.C73_corner_wrong",
    "OpenSBLI.MultiBlock.C73_corner_fresh_after_two",
    "OpenSBLI.Alg.C73_periodic_output",
    "OpenSBLI.Alg.C73_saved_together",
    "OpenSBLI.Alg.C73_declarations"
   ],
   "note": "Order of execution and acceptance fully; interface halos for all arrangements of aligned blocks except points in the halos of two directions, where four blocks meeting at a point are shown to leave a stale corner; metrics ignore their order. C73_periodic_output, C73_saved_together: when the objects of all blocks write; C73_declarations: the names of their buffers."
  },
  {
   "property": "C74",
   "status": "partial",
   "theorems": [
    "OpenSBLI.Katzer.C74_similarity_equations",
    "OpenSBLI.Katzer.C74_profile_partial",
    "OpenSBLI.Katzer.C74_secant_step",
    "OpenSBLI.Katzer.C74_affine_exact",
    "OpenSBLI.Katzer.C74_unconverged_keeps_trial",
    "OpenSBLI.Katzer.C74_isothermal_increment_zero",
    "OpenSBLI.Katzer.C74_wall_distance",
    "OpenSBLI.Katzer.C74_continuity",
    "OpenSBLI.Katzer.C74_edge",
    "OpenSBLI.Katzer.C74_one_wall",
    "OpenSBLI.Katzer.C74_side_walls_pressure",
    "OpenSBLI.Katzer.C74_side_walls_symmetric",
    "OpenSBLI.Katzer.C74_side_walls_free_stream",
    "OpenSBLI.Katzer.C74_requests_refused",
    "OpenSBLI.Katzer.C74_second_direction_ignored"
   ],
   "note": "For adiabatic walls; convergence of the shooting is proved only for affine dependence, and an unconverged profile is accepted silently; a given wall temperature divides by zero; a second boundary layer is always taken in the third direction. Quality of the polynomial fit, odeint and rounding are not modelled."
  },
  {
   "property": "C75",
   "status": "partial",
   "theorems": [
    "OpenSBLI.CCode.C75_kernel_text_partial",
    "OpenSBLI.CCode.C75_generated_constants",
    "OpenSBLI.CCode.C75_program_partial",
    "OpenSBLI.CCode.C75_definition_text",
    "OpenSBLI.CCode.C75_equality_condition_assigns",
    "OpenSBLI.CCode.C75_equality_condition_of_index",
    "OpenSBLI.CCode.C75_index_quotient_truncated",
    "OpenSBLI.CCode.C75_modulus_sign",
    "OpenSBLI.CCode.C75_modulus_of_global",
    "OpenSBLI.CCode.C75_hidden_constant",
    "OpenSBLI.CCode.C75_varying_exponent",
    "OpenSBLI.CCode.C75_equality_condition_wrong"
   ],
   "note": "Holds when no condition of a grouped piecewise is an equality, no integer is divided by an integer, moduli have operands of the same sign and no global values, no constant is hidden by a grid variable, and negative powers of constants have constant exponents; theorems show the text wrong or not compiling otherwise. Constants may be registered and inverse powers requested in any order before the kernels are written (`Registered`). SymPy's own printing rules (sums, products, powers, functions) are assumed as described in Model/CCode.lean; double arithmetic is that of an ordered field."
  },
  {
   "property": "C76",
   "status": "partial",
   "theorems": [
    "OpenSBLI.WenoFilter.C76_fluxes_are_euler",
    "OpenSBLI.WenoFilter.C76_filter_line",
    "OpenSBLI.WenoFilter.C76_accepted_iff",
    "OpenSBLI.WenoFilter.C76_step_constant",
    "OpenSBLI.WenoFilter.C76_step_ducros",
    "OpenSBLI.WenoFilter.C76_step_ducros_partial",
    "OpenSBLI.WenoFilter.C76_central_overwrites_fluxes",
    "OpenSBLI.WenoFilter.C76_two_dimensional_defect",
    "OpenSBLI.WenoFilter.C76_uniform_flow_unchanged",
    "OpenSBLI.WenoFilter.C76_sensor_weight",
    "OpenSBLI.WenoFilter.C76_conserves_partial",
    "OpenSBLI.WenoFilter.C76_sensor_reads_inside",
    "OpenSBLI.WenoFilter.C76_sensor_reads_stale",
    "OpenSBLI.WenoFilter.C76_wall_zone",
    "OpenSBLI.WenoFilter.C76_eigensystem_metrics",
    "OpenSBLI.WenoFilter.C76_orders",
    "OpenSBLI.WenoFilter.C76_central_is_mean_of_ideal",
    "OpenSBLI.WenoFilter.C76_subtracts_central_scheme",
    "OpenSBLI.WenoFilter.C76_ideal_difference",
    "OpenSBLI.WenoFilter.C76_filter_flux",
    "OpenSBLI.WenoFilter.C76_no_flux_on_linear_waves",
    "OpenSBLI.WenoFilter.C76_flag_removes_base_scheme"
   ],
   "note": "The flux, the step for the constant sensor, and the step for the Ducros sensor are proved in full generality, the latter with the arrays actually read. The claim fails where the work arrays of the sensor and of the fluxes coincide (`Central`), for a base scheme with characteristic reconstruction, and for central schemes reaching further than the filter; separate theorems. Conservation is shown for the constant sensor only. General curvilinear equations are not modelled."
  },
  {
   "property": "C77",
   "status": "partial",
   "theorems": [
    "OpenSBLI.Sim.C77_conservation_rk",
    "OpenSBLI.Sim.C77_conservation_ls",
    "OpenSBLI.Sim.C77_uniform_flow",
    "OpenSBLI.Sim.C77_stale_constituent",
    "OpenSBLI.Sim.C77_grid_values_ls",
    "OpenSBLI.Sim.C77_grid_values",
    "OpenSBLI.Sim.C77_datasets_exist",
    "OpenSBLI.Sim.C77_residual_partial",
    "OpenSBLI.Sim.C77_program_rk_partial",
    "OpenSBLI.Sim.C77_program_ls_partial"
   ],
   "note": "Proved end to end under the hypotheses of `Setup.Valid`. Each hypothesis excludes equations the code accepts and gets wrong or drops: relations using relations which are not differentiated in the same direction (C77_stale_constituent), functions in right hand sides and right hand sides which are not sums or products (C63), several levels of nested viscous derivatives (C63), viscous terms without any derivative. One spatial scheme, one block, relations without derivatives; the kernels of the boundary conditions are one function on the solution arrays, instantiated with the periodic exchange of C24."
  },
  {
   "property": "C78",
   "status": "partial",
   "theorems": [
    "OpenSBLI.Sim.C78_simple_average_reads",
    "OpenSBLI.Sim.C78_roe_average_reads",
    "OpenSBLI.Sim.C78_roe_average",
    "OpenSBLI.Sim.C78_simple_average",
    "OpenSBLI.Sim.C78_first_direction",
    "OpenSBLI.Sim.C78_conservation_rk",
    "OpenSBLI.Sim.C78_conservation_ls",
    "OpenSBLI.Sim.C78_uniform_flow",
    "OpenSBLI.Sim.C78_halo_independent",
    "OpenSBLI.Sim.C78_no_derivatives",
    "OpenSBLI.Sim.C78_counted_twice",
    "OpenSBLI.Sim.C78_datasets_exist",
    "OpenSBLI.Sim.C78_residual_partial",
    "OpenSBLI.Sim.C78_program_rk_partial",
    "OpenSBLI.Sim.C78_program_ls_partial"
   ],
   "note": "Proved end to end under the hypotheses of `Shock.Valid`, the conservation theorems for blocks whose direction 0 has shock capturing derivatives. The hypotheses exclude problems the code accepts and gets wrong: terms with the Reynolds number but no derivative next to viscous derivatives (C78_counted_twice), blocks without shock capturing derivatives in direction 0 (C78_first_direction), relations whose constituents have smaller ranges (C77_stale_constituent). The grid variables inside the reconstruction kernel are one function (their values are C18-C22); TENO without the adaptive sensor; eigensystems as given expressions."
  },
  {
   "property": "C79",
   "status": "proved",
   "theorems": [
    "OpenSBLI.Sim.C79_free_stream_central_rk",
    "OpenSBLI.Sim.C79_free_stream_central_ls",
    "OpenSBLI.Sim.C79_free_stream_shock_rk",
    "OpenSBLI.Sim.C79_free_stream_shock_ls",
    "OpenSBLI.Sim.C79_weighted_conservation_central_rk",
    "OpenSBLI.Sim.C79_weighted_conservation_central_ls",
    "OpenSBLI.Sim.C79_weighted_conservation_shock_rk",
    "OpenSBLI.Sim.C79_weighted_conservation_shock_ls"
   ],
   "note": "Metric terms are arrays the program reads and does not assign in the time loop (their evaluation is C55). Uniform flow is not claimed for fluxes that contain metric terms (conservation form on general curvilinear grids), where it depends on discrete metric identities."
  },
  {
   "property": "C80",
   "status": "partial",
   "theorems": [
    "OpenSBLI.Metric.C80_metric_terms_partial",
    "OpenSBLI.Metric.C80_opposite_sides_wrong"
   ],
   "note": "Proved for interfaces which reverse the direction, for all arrangements of blocks. False for interfaces between a lower and an upper side, the usual case: the signs are changed all the same (C80_opposite_sides_wrong). Corner halos as in C73; rotated blocks as in C30."
  },
  {
   "property": "C81",
   "status": "partial",
   "theorems": [
    "OpenSBLI.Recon.C81_euler_regular",
    "OpenSBLI.Recon.C81_euler",
    "OpenSBLI.Recon.C81_kernel",
    "OpenSBLI.Recon.C81_interface",
    "OpenSBLI.Recon.C81_loop",
    "OpenSBLI.Recon.C81_points_weno",
    "OpenSBLI.Recon.C81_points_teno",
    "OpenSBLI.Recon.C81_names",
    "OpenSBLI.Recon.C81_names_collide",
    "OpenSBLI.Recon.C81_unset_average"
   ],
   "note": "Proved for at most ten components and dataset names which collide with no variable; with twelve components or a dataset inv_rho names coincide (C81_names_collide). With simple averages and an eigensystem without density the kernel divides by a variable which is never assigned (C81_unset_average); the quotient is not used. SymPy's factor and subs enter by a contract that values are kept at states without singular powers; real arithmetic. The filter branch is C76."
  },
  {
   "property": "C82",
   "status": "partial",
   "theorems": [
    "OpenSBLI.Parse.C82_der",
    "OpenSBLI.Parse.C82_conservative",
    "OpenSBLI.Parse.C82_expand_partial",
    "OpenSBLI.Parse.C82_substitutions_partial",
    "OpenSBLI.Parse.C82_scheme",
    "OpenSBLI.Parse.C82_rebuilt",
    "OpenSBLI.Parse.C82_substitution_scheme",
    "OpenSBLI.Parse.C82_inner_scheme",
    "OpenSBLI.Parse.C82_inner_scheme_conservative",
    "OpenSBLI.Parse.C82_unknown_scheme",
    "OpenSBLI.Parse.C82_three_conservative",
    "OpenSBLI.Parse.C82_der_in_conservative",
    "OpenSBLI.Parse.C82_three_der",
    "OpenSBLI.Parse.C82_skew_partial",
    "OpenSBLI.Parse.C82_skew_symbol",
    "OpenSBLI.Parse.C82_skew_function",
    "OpenSBLI.Parse.C82_coordinates",
    "OpenSBLI.Parse.C82_constants_partial",
    "OpenSBLI.Parse.C82_data_partial",
    "OpenSBLI.Parse.C82_coordinate_names",
    "OpenSBLI.Parse.C82_names_coordinate",
    "OpenSBLI.Parse.C82_names_library",
    "OpenSBLI.Parse.C82_inner_scheme_example",
    "OpenSBLI.Parse.C82_skew_sum"
   ],
   "note": "Proved for derivatives nested at most twice, of the same kind, where inner Der and derivatives touched by a substitution have the default scheme. Outside of that the code differs: names containing the coordinate and an underscore are coordinates (C82_names_coordinate), rebuilt derivatives lose their scheme (C82_rebuilt, C82_substitution_scheme, C82_inner_scheme), inner schemes are ignored (C82_inner_scheme_conservative), three levels are refused or left undone (C82_three_conservative, C82_three_der), Der inside Conservative is left (C82_der_in_conservative), coordinates with indices are differentiated as plain symbols (C82_coordinates), Skew of a sum is wrong and of a symbol refused (C82_skew_sum, C82_skew_symbol). SymPy's diff, subs and xreplace are modelled by their rules; MetricDer is not modelled."
  },
  {
   "property": "C83",
   "status": "partial",
   "theorems": [
    "OpenSBLI.Place.C83_placed_partial",
    "OpenSBLI.Place.C83_constants_partial",
    "OpenSBLI.Place.C83_again",
    "OpenSBLI.Place.C83_blocks",
    "OpenSBLI.Place.C83_nested_lost",
    "OpenSBLI.Place.C83_tuple_lost",
    "OpenSBLI.Place.C83_nested_empty",
    "OpenSBLI.Place.C83_expression"
   ],
   "note": "Proved for lists whose elements are equations or lists of equations. Lists in lists and tuples lose or move equations (C83_nested_lost, C83_tuple_lost) or stop the code (C83_nested_empty); expressions that are no equations are not placed and their constants not registered (C83_expression)."
  },
  {
   "property": "C84",
   "status": "partial",
   "theorems": [
    "OpenSBLI.Prog.C84_scoped_partial",
    "OpenSBLI.Prog.C84_algorithm_partial",
    "OpenSBLI.Prog.C84_unregistered",
    "OpenSBLI.Prog.C84_value",
    "OpenSBLI.Prog.C84_library",
    "OpenSBLI.Prog.C84_hidden",
    "OpenSBLI.Prog.C84_local",
    "OpenSBLI.Prog.C84_placed_twice",
    "OpenSBLI.Prog.C84_two_outputs",
    "OpenSBLI.Prog.C84_two_outputs_requested",
    "OpenSBLI.Prog.C84_monitored",
    "OpenSBLI.Prog.C84_stage_outside",
    "OpenSBLI.Prog.C84_inverse",
    "OpenSBLI.Prog.C84_block_number",
    "OpenSBLI.Prog.C84_empty_output"
   ],
   "note": "Proved (C84_scoped_partial, C84_algorithm_partial) when constants are registered and not called like arrays or header names, no kernel is placed twice outside the time loop, at most one output has no name, monitors concern arrays of kernels, and stage coefficients are used in the stage loop. Each of these conditions is needed: the generator writes ill-scoped programs otherwise. Block numbers other than 0 raise. Inverse powers requested while the equations are discretised are included."
  },
  {
   "property": "C85",
   "status": "partial",
   "theorems": [
    "OpenSBLI.Sim.C85_closures_local",
    "OpenSBLI.Sim.C85_closures_program",
    "OpenSBLI.Sim.C85_closure_formulas",
    "OpenSBLI.Sim.C85_closure_exact_partial",
    "OpenSBLI.Sim.C85_reduced_order_wrong",
    "OpenSBLI.Sim.C85_closure_rounding",
    "OpenSBLI.Sim.C85_no_halo",
    "OpenSBLI.Sim.C85_name_clash",
    "OpenSBLI.Sim.C85_text_run_partial",
    "OpenSBLI.Sim.C85_constants",
    "OpenSBLI.Sim.C85_rk_partial",
    "OpenSBLI.Sim.C85_ls_partial",
    "OpenSBLI.Sim.C85_conservation_rk_partial",
    "OpenSBLI.Sim.C85_conservation_ls_partial"
   ],
   "note": "Proved (C85_text_run_partial, C85_rk_partial, C85_ls_partial, C85_conservation_rk_partial, C85_conservation_ls_partial) under the conditions of C77 on the problem and of C75 on its expressions, both stated on the problem (`Text.Suits`), when different arrays have different names. Names can clash (C85_name_clash). Other kernels, for example initial conditions with the indices of points, may come with any text that says what they compute (`Text.Says`, used in C88_wave). The kernels of boundary conditions are functions on the arrays, not text; those of shock capturing schemes are the subject of C86; boundary closures are in the text (C85_closures_program, C85_closure_formulas, C85_closure_exact_partial, C85_no_halo), the first derivative of Carpenter with its printed digits (C85_closure_rounding); the factorisation SymPy applies to the closure formulas is not modelled. The reduced order closure prints a second derivative of the wrong sign on the right (C85_reduced_order_wrong)."
  },
  {
   "property": "C86",
   "status": "partial",
   "theorems": [
    "OpenSBLI.Sim.C86_reconstruction",
    "OpenSBLI.Sim.C86_gamma",
    "OpenSBLI.Sim.C86_text_run_partial",
    "OpenSBLI.Sim.C86_rk_partial",
    "OpenSBLI.Sim.C86_ls_partial",
    "OpenSBLI.Sim.C86_conservation_rk_partial",
    "OpenSBLI.Sim.C86_conservation_ls_partial"
   ],
   "note": "Proved (C86_reconstruction for one call, with the adaptive TENO scheme too; C86_text_run_partial, C86_rk_partial, C86_ls_partial, C86_conservation_rk_partial, C86_conservation_ls_partial for programs without a sensor) under the conditions of C78 on the problem, of C81 on the kernel and of C75 on its expressions, when different arrays have different names, no constant is called like a grid variable, and no singular state is met (C86's `NeverSingular`). The order in which SymPy writes terms and the kernels of boundary conditions are not part of the text."
  },
  {
   "property": "C87",
   "status": "partial",
   "theorems": [
    "OpenSBLI.Order.C87_central",
    "OpenSBLI.Order.C87_closure_partial",
    "OpenSBLI.Order.C87_expressions",
    "OpenSBLI.Order.C87_right_hand_sides"
   ],
   "note": "Proved for derivatives (C87_central), expressions with nested derivatives (C87_expressions) and right hand sides from the solution arrays (C87_right_hand_sides). Closures (C87_closure_partial): not the second derivative of the reduced order closure on the right, which has the wrong sign (C22_reduced_order_right_second_wrong); the decimals printed for Carpenter are the subject of C85_closure_rounding. Functions and powers other than natural ones may be applied to expressions without derivatives only, as in constituent relations."
  },
  {
   "property": "C88",
   "status": "partial",
   "theorems": [
    "OpenSBLI.Order.C88_stability",
    "OpenSBLI.Order.C88_stability_ls",
    "OpenSBLI.Order.C88_convergence",
    "OpenSBLI.Order.C88_convergence_ls",
    "OpenSBLI.Order.C88_text_convergence_partial",
    "OpenSBLI.Order.C88_text_convergence_ls_partial",
    "OpenSBLI.Order.C88_stability_ls4",
    "OpenSBLI.Order.C88_convergence_ls4",
    "OpenSBLI.Order.C88_text_convergence_ls4_partial",
    "OpenSBLI.Sim.C88_wave",
    "OpenSBLI.Sim.C88_wave_returns",
    "OpenSBLI.Sim.C88_wave_ls",
    "OpenSBLI.Sim.C88_wave_ls4"
   ],
   "note": "Stability (C88_stability) and convergence (C88_convergence) are proved for the operator of C77, and for the run of the printed program (C88_text_convergence_partial) whose boundary conditions are the exchanges of periodic ones. C88_stability_ls, C88_convergence_ls and C88_text_convergence_ls_partial are the low storage schemes of order three, C88_wave_ls the program of apps/wave with them. C88_stability_ls4, C88_convergence_ls4, C88_text_convergence_ls4_partial and C88_wave_ls4 are the low storage scheme of order four with the decimals of the source: its limit of stability is wider, and its error C (dt^4 + h^(2m)) + 10^-13 T S, where S bounds the first four derivatives in time of the solution and the last term is that of the decimals. C88_wave is the whole program of apps/wave: its initialisation kernel, with the indices of the grid, is part of the printed text; M_PI is treated as a constant of the program. Arithmetic is that of the reals. Not proved: equations that are not linear, other boundary conditions."
  },
  {
   "property": "C89",
   "status": "partial",
   "theorems": [
    "OpenSBLI.Sim.C89_flow",
    "OpenSBLI.TimeOrder.C89_order_four",
    "OpenSBLI.TimeOrder.C89_order_four_lipschitz",
    "OpenSBLI.TimeOrder.C89_ls4_method",
    "OpenSBLI.TimeOrder.C89_low_storage4",
    "OpenSBLI.Sim.C89_smooth4",
    "OpenSBLI.Sim.C89_simulation_ls4",
    "OpenSBLI.Sim.C89_text_ls4_partial",
    "OpenSBLI.TimeOrder.C89_default",
    "OpenSBLI.TimeOrder.C89_low_storage",
    "OpenSBLI.TimeOrder.C89_solutions_exist",
    "OpenSBLI.Sim.C89_simulation",
    "OpenSBLI.Sim.C89_simulation_ls",
    "OpenSBLI.Sim.C89_smooth",
    "OpenSBLI.Sim.C89_text_partial",
    "OpenSBLI.Sim.C89_text_ls_partial"
   ],
   "note": "C89_default and C89_low_storage are about the schemes and any smooth right hand side in a finite dimensional space; C89_simulation and C89_simulation_ls about the operator of C77 with boundary conditions that fill the halos from the grid; C89_text_partial and C89_text_ls_partial about the run of the printed program. C89_smooth proves the smoothness that these assume for central schemes on periodic boxes, and C89_flow is a nonlinear program from its initial values to its error, with no assumption but non-vanishing density. C89_order_four gives, for each problem, constants C, h0 and eta0 that serve all explicit methods whose coefficients add up to at most sigma and meet the eight conditions of order four up to eta <= eta0: the error is at most C (dt^4 + eta); C89_order_four_lipschitz needs no eta0. C89_ls4_method shows that the low storage scheme of order four, with the decimals of the source, is such a method with eta = 10^-13, so that C89_low_storage4, C89_simulation_ls4 and C89_text_ls4_partial apply these constants to it, if 10^-13 <= eta0; C89_smooth4 is the smoothness they need. Arithmetic is that of the reals, and the coefficients of 'SSP' are those of their exact formula. Not proved: shock capturing schemes, whose right hand sides are not smooth."
  },
  {
   "property": "C90",
   "status": "partial",
   "theorems": [
    "OpenSBLI.Sim.C90_heat",
    "OpenSBLI.Sim.C90_simulation",
    "OpenSBLI.Sim.C90_simulation_ssp",
    "OpenSBLI.Sim.C90_text_partial",
    "OpenSBLI.RK.C90_default",
    "OpenSBLI.RK.C90_monotone",
    "OpenSBLI.RK.C90_ssp",
    "OpenSBLI.RK.C90_default_sharp",
    "OpenSBLI.RK.C90_ssp_limit",
    "OpenSBLI.RK.C90_low_storage_not"
   ],
   "note": "C90_default, C90_monotone and C90_ssp are about the schemes, with the coefficients of 'SSP' in exact arithmetic; C90_simulation and C90_simulation_ssp about the operator of C77 with boundary conditions that fill the halos from the grid; C90_text_partial about the run of the printed program, and C90_heat is a program with nothing assumed about it. C90_default_sharp and C90_ssp_limit bound the limits from above: the formulation called SSP allows a time step of less than a third of that of Euler's method, the default scheme three fifths. The default low storage scheme has the property for no time step (C90_low_storage_not). Not proved: that a given shock capturing scheme has the property for Euler's method."
  },
  {
   "property": "C91",
   "status": "partial",
   "theorems": [
    "OpenSBLI.Bc.C91_text_partial",
    "OpenSBLI.Bc.C91_proper",
    "OpenSBLI.Bc.C91_kernel",
    "OpenSBLI.Bc.C91_program",
    "OpenSBLI.Bc.C91_rk_partial",
    "OpenSBLI.Bc.C91_ls_partial",
    "OpenSBLI.Bc.C91_last",
    "OpenSBLI.Bc.C91_boundary_values_partial",
    "OpenSBLI.Bc.C91_no_slip_partial",
    "OpenSBLI.Bc.C91_wall_temperature_partial",
    "OpenSBLI.Bc.C91_symmetry",
    "OpenSBLI.Bc.C91_symmetry_proper",
    "OpenSBLI.Bc.C91_symmetry_confined",
    "OpenSBLI.Bc.C91_rod",
    "OpenSBLI.Bc.C91_isothermal_confined",
    "OpenSBLI.Bc.C91_wall_names",
    "OpenSBLI.Bc.C91_isothermal_proper_partial",
    "OpenSBLI.Bc.C91_isothermal_partial",
    "OpenSBLI.Bc.C91_plain_proper",
    "OpenSBLI.Bc.C91_plain",
    "OpenSBLI.Bc.C91_zero_gradient",
    "OpenSBLI.Bc.C91_extrapolation",
    "OpenSBLI.Bc.C91_inlet_transfer",
    "OpenSBLI.Bc.C91_adiabatic",
    "OpenSBLI.Bc.C91_pressure_outlet",
    "OpenSBLI.Bc.C91_inlet_pressure",
    "OpenSBLI.Bc.C91_inlet_names",
    "OpenSBLI.Bc.C91_adiabatic_momentum",
    "OpenSBLI.Bc.C91_outlet_pressure_partial",
    "OpenSBLI.Bc.C91_adiabatic_no_slip_partial",
    "OpenSBLI.Bc.C91_wall_and_outlet",
    "OpenSBLI.Bc.C91_shock_rk_partial",
    "OpenSBLI.Bc.C91_shock_ls_partial",
    "OpenSBLI.Bc.C91_tube"
   ],
   "note": "C91_text_partial, C91_kernel: the printed kernel against the equations of C25-C31; C91_program and C91_rk_partial / C91_ls_partial: complete programs with any number of printed conditions, the operator B of C77 being their composition; C91_boundary_values_partial, C91_no_slip_partial: the values after the first step. C91_symmetry and C91_isothermal_partial instantiate them; C91_wall_names: the grid variables of a wall have different names if there are at most ten momenta. C91_rod is a complete printed program of diffusion in an insulated rod, with nothing assumed about it, which obeys the maximum principle. C91_tube is the same for a gas between isothermal walls (no slip and wall temperature), C91_wall_and_outlet for a gas between an adiabatic wall and a pressure outlet; C91_wall_temperature_partial, C91_adiabatic_no_slip_partial and C91_outlet_pressure_partial are the general statements. C91_plain with C91_zero_gradient, C91_extrapolation, C91_inlet_transfer, C91_inlet_pressure covers the other conditions; C91_shock_rk_partial / C91_shock_ls_partial are programs of shock capturing schemes. Partial: as C85; the Carpenter adiabatic wall (rounded coefficients), conditions which read other arrays than the solution (metrics, coordinates) and those with general powers are not covered."
  },
  {
   "property": "C92",
   "status": "partial",
   "theorems": [
    "OpenSBLI.Note.C92_wave",
    "OpenSBLI.Note.C92_tube",
    "OpenSBLI.Note.C92_equations",
    "OpenSBLI.Note.C92_relations",
    "OpenSBLI.Note.C92_rk_partial",
    "OpenSBLI.Note.C92_ls_partial",
    "OpenSBLI.Ein.C92_renaming",
    "OpenSBLI.Note.C92_letters",
    "OpenSBLI.Note.C92_constant_letters_not_free"
   ],
   "note": "C92_equations, C92_relations: the equations with component numbers against the meaning of index notation of C49 (Spec/Einstein, Spec/Notation); C92_rk_partial, C92_ls_partial: the printed programs of C85. C92_wave and C92_tube: the programs of apps/wave and of a gas between isothermal walls from their equations in index notation, with nothing assumed about them. C92_renaming, C92_letters: other letters for the indices. C92_constant_letters_not_free: constants are declared with their letters. Partial: as C85; the equations are taken after parsing and differentiation (C82); numbers are symbols; SymPy's order of terms and factors and the collection of equal ones, LC, and functions other than powers are left out."
  },
  {
   "property": "C93",
   "status": "partial",
   "theorems": [
    "OpenSBLI.Sim.C93_program_rk_partial",
    "OpenSBLI.Sim.C93_program_ls_partial",
    "OpenSBLI.Sim.C93_chain_rk",
    "OpenSBLI.Sim.C93_chain_ls",
    "OpenSBLI.Sim.C93_wave_chain",
    "OpenSBLI.Sim.C93_mixed_derivatives_differ",
    "OpenSBLI.Sim.C93_mixed_derivatives_not_same",
    "OpenSBLI.Sim.C93_split_rk_partial",
    "OpenSBLI.Sim.C93_split_ls_partial",
    "OpenSBLI.Sim.C93_tiling_rk",
    "OpenSBLI.Sim.C93_tiling_ls",
    "OpenSBLI.Sim.C93_wave"
   ],
   "note": "C93_program_rk_partial, C93_program_ls_partial: the arrays and files of the program of several blocks are the iterates of a joint Runge-Kutta step (Spec/SimulationMB). C93_split_rk_partial, C93_split_ls_partial: equality with the program of one block for any layout meeting Splits. C93_tiling_rk, C93_tiling_ls: periodic boxes cut into blocks in any dimension. C93_wave: the wave equation on a ring of any number of blocks of any sizes, both programs being generated. C93_chain_rk, C93_chain_ls: intervals with any boundary conditions at the ends, as chains of blocks; C93_wave_chain an instance. C93_mixed_derivatives_differ, C93_mixed_derivatives_not_same: with a mixed derivative and four blocks meeting at a point, the generated programs give different values after one step. Partial: as C77 for the equations of one block; equations with derivatives of derivatives read corners of halos, where interfaces leave old values (C73_corner_stale), and are excluded by hreads; the interfaces join whole faces of opposite sides with the same direction."
  },
  {
   "property": "C94",
   "status": "partial",
   "theorems": [
    "OpenSBLI.Flow.C94_energy_lost",
    "OpenSBLI.Sim.C94_skew_rk",
    "OpenSBLI.Sim.C94_skew_ls",
    "OpenSBLI.Tgv.C94_equations",
    "OpenSBLI.Tgv.C94_relations",
    "OpenSBLI.Tgv.C94_navier_stokes",
    "OpenSBLI.Tgv.C94_taylor_green"
   ],
   "note": "C94_equations, C94_relations: the expansion of the written equations (Model/FrontEnd). C94_navier_stokes: their values are those of Spec/NavierStokes, which is written without the code generator. C94_taylor_green: the printed program, nothing assumed about it. C94_skew_rk, C94_skew_ls: conservation for all equations made of derivatives and skew-symmetric pairs. C94_energy_lost: the total energy of a viscous flow is not conserved. Partial: the conservation of energy fails; SymPy's rearrangement of sums and products is not modelled beyond numbers; real numbers instead of floating point. The texts themselves are read in C95."
  },
  {
   "property": "C95",
   "status": "partial",
   "theorems": [
    "OpenSBLI.Source.C95_grammar",
    "OpenSBLI.Source.C95_unambiguous",
    "OpenSBLI.Source.C95_read",
    "OpenSBLI.Source.C95_read_joined",
    "OpenSBLI.Source.C95_spaces",
    "OpenSBLI.Source.C95_whole_number",
    "OpenSBLI.Source.C95_decimal",
    "OpenSBLI.Source.C95_derivative",
    "OpenSBLI.Source.Tgv.C95_equations",
    "OpenSBLI.Source.Tgv.C95_relations",
    "OpenSBLI.Source.C95_wave",
    "OpenSBLI.Source.C95_value",
    "OpenSBLI.Source.C95_side_partial",
    "OpenSBLI.Source.C95_indices"
   ],
   "note": "C95_grammar: the parser accepts a list of tokens as an expression if and only if the rules of Spec/Grammar derive it. C95_unambiguous: no list of tokens has two meanings. C95_read_joined: from characters, with spaces or without (C95_read: with spaces between all tokens). C95_spaces: spaces do not matter. C95_value: the expression made of a text has the value of what is written, in any calculus (commutative algebra with commuting derivations). C95_side_partial: and so has the expression that is brought to index notation, with substitutions, differentiation of products and combination of numbers. C95_whole_number, C95_decimal: numbers are what their digits write. C95_derivative: the coordinates and the scheme of a derivative as written. C95_indices: a name is its base and its indices in the order written. Tgv.C95_equations, Tgv.C95_relations: the texts of apps/taylor_green_vortex give the equations and relations of C94. C95_wave: the text of apps/wave gives the equation of C92_wave. Partial: C95_value asks that `Skew` is written of products of two names, C95_side_partial the conditions of C82; the tokenizer and the grammar are Python's, modelled from its language reference; of it only what equations use (no comparisons, lists, strings, exponents of numbers, unary plus)."
  },
  {
   "property": "C96",
   "status": "proved",
   "theorems": [
    "OpenSBLI.Restart.C96_numbered_file",
    "OpenSBLI.Restart.C96_final_file",
    "OpenSBLI.Restart.C96_files_continue",
    "OpenSBLI.Restart.C96_objects_write_later",
    "OpenSBLI.Restart.C96_sources",
    "OpenSBLI.Restart.C96_lower_case",
    "OpenSBLI.Restart.C96_unknown_first",
    "OpenSBLI.Restart.C96_unknown_later",
    "OpenSBLI.Restart.C96_restart_rk",
    "OpenSBLI.Restart.C96_initial_conditions_win",
    "OpenSBLI.Restart.C96_restart_ls",
    "OpenSBLI.Restart.C96_restart_shock_rk",
    "OpenSBLI.Restart.C96_restart_shock_ls"
   ],
   "note": "C96_restart_rk, C96_restart_ls (central schemes), C96_restart_shock_rk, C96_restart_shock_ls (WENO and TENO): Continues. C96_numbered_file, C96_final_file: which file has the solution of which step. C96_files_continue: the files of the second program. C96_objects_write_later: objects write in or after the loop. C96_sources: which arrays are read from which file. C96_initial_conditions_win: initial conditions replace what was read. C96_lower_case, C96_unknown_first, C96_unknown_later: findings on the objects. The theorems are for programs whose other kernels are placed before the time loop (no filters, no statistics) and ask that the arrays that are neither solution nor given by relations (coordinates, metric terms) are made again as they were."
  },
  {
   "property": "C97",
   "status": "partial",
   "theorems": [
    "OpenSBLI.Sim.C97_contact_rk_partial",
    "OpenSBLI.Sim.C97_contact_ls_partial",
    "OpenSBLI.Sim.C97_at_rest",
    "OpenSBLI.Sim.C97_at_rest_ls",
    "OpenSBLI.Sim.C97_gas_at_rest",
    "OpenSBLI.Sim.C97_gas_at_rest_roe"
   ],
   "note": "C97_contact_rk_partial, C97_contact_ls_partial: the arrays are those of the scalar scheme, at the end and in the files, for all WENO and TENO schemes. C97_at_rest, C97_at_rest_ls: with velocity zero nothing changes. C97_gas_at_rest: the Euler equations in two dimensions; C97_gas_at_rest_roe: with Roe averages. Missing: data for which TENO of order 6 divides by zero (C13_six_zero_denominator) are not told apart; the moving wave is followed while the scalar scheme keeps the densities positive, which WENO schemes need not do."
  },
  {
   "property": "C98",
   "status": "partial",
   "theorems": [
    "OpenSBLI.Note.C98_right_sides",
    "OpenSBLI.Note.C98_flux_vectors",
    "OpenSBLI.Note.C98_rk_partial",
    "OpenSBLI.Source.Wave.C98_texts",
    "OpenSBLI.Sim.C98_euler_wave_conserves",
    "OpenSBLI.Sim.C98_density_wave_partial"
   ],
   "note": "C98_right_sides: the value of right hand sides taken apart, for any operator. C98_flux_vectors: directions and fluxes handed to the scheme. C98_rk_partial: from index notation to the program. C98_texts: the texts of apps/euler_wave. C98_euler_wave_conserves: its program conserves. C98_density_wave_partial: and moves the wave as the scalar scheme does. Missing: as C78 and C92; powers and products of shock capturing derivatives, and derivatives of one direction twice in an equation, are left out; positivity of the scalar scheme is assumed."
  },
  {
   "property": "C99",
   "status": "partial",
   "theorems": [
    "OpenSBLI.Sim.C99_accuracy",
    "OpenSBLI.Sim.C99_three_dimensions",
    "OpenSBLI.Sim.C99_metrics",
    "OpenSBLI.Sim.C99_conservation_rk",
    "OpenSBLI.Sim.C99_conservation_ls",
    "OpenSBLI.Sim.C99_stretched",
    "OpenSBLI.Sim.C99_defect",
    "OpenSBLI.Sim.C99_uniform_flow",
    "OpenSBLI.Sim.C99_uniform_flow_ls",
    "OpenSBLI.Sim.C99_two_dimensions"
   ],
   "note": "C99_metrics: metric terms and detJ at the beginning of the time loop. C99_conservation_rk, C99_conservation_ls: weighted sums, given the metric identities; C99_two_dimensions, C99_stretched: where they hold always. C99_defect, C99_three_dimensions: without them the sums change, and there are such grids in three dimensions. C99_uniform_flow, C99_uniform_flow_ls: uniform solutions. C99_accuracy: order of the derivatives. Second derivatives: C100. Missing: grids of several blocks."
  },
  {
   "property": "C100",
   "status": "partial",
   "theorems": [
    "OpenSBLI.Sim.C100_accuracy",
    "OpenSBLI.Sim.C100_boundary_inconsistent",
    "OpenSBLI.Sim.C100_curvilinear",
    "OpenSBLI.Sim.C100_right_hand_sides",
    "OpenSBLI.Sim.C100_second_metrics",
    "OpenSBLI.Sim.C100_derivatives",
    "OpenSBLI.Sim.C100_uniform_flow",
    "OpenSBLI.Sim.C100_uniform_flow_ls",
    "OpenSBLI.Sim.C100_mirrored"
   ],
   "note": "C100_second_metrics, C100_derivatives: the metric terms and SDijk at the beginning of the time loop. C100_uniform_flow, C100_uniform_flow_ls: uniform solutions. C100_accuracy: order of second derivatives in a stretched direction. C100_curvilinear: order of first and second derivatives on curvilinear grids. C100_right_hand_sides: order of whole right hand sides on curvilinear grids. C100_mirrored, C100_boundary_inconsistent: the boundary points of sides which are not periodic. Missing: Carpenter's formulas at the sides; grids of several blocks (C80)."
  },
  {
   "property": "C101",
   "status": "partial",
   "theorems": [
    "OpenSBLI.Orders.C101_order_one_has_no_second_derivative",
    "OpenSBLI.Orders.C101_central",
    "OpenSBLI.Orders.C101_central_halos",
    "OpenSBLI.Orders.C101_weno",
    "OpenSBLI.Orders.C101_weno_even",
    "OpenSBLI.Orders.C101_teno",
    "OpenSBLI.Orders.C101_runge_kutta",
    "OpenSBLI.Orders.C101_low_storage",
    "OpenSBLI.Orders.C101_formulation_ignored"
   ],
   "note": "C101_central, C101_weno, C101_teno, C101_runge_kutta, C101_low_storage: requests accepted, and the exact order of what is built. C101_central_halos: the halos cover the formula for every order. The property fails for odd orders of Central (C101_central, C101_order_one_has_no_second_derivative), even orders of WENO (C101_weno_even), TENO (C101_teno) and misspelt formulations (C101_formulation_ignored). Order of WENO and TENO is that of the linear scheme; the nonlinear weights are in C09, C10, C13."
  },
  {
   "property": "C102",
   "status": "partial",
   "theorems": [
    "OpenSBLI.Order.C102_principle_ls4",
    "OpenSBLI.Order.C102_convergence_ls4",
    "OpenSBLI.Order.C102_text_principle_partial",
    "OpenSBLI.Order.C102_text_principle_ls_partial",
    "OpenSBLI.Order.C102_text_principle_ls4_partial",
    "OpenSBLI.Order.C102_text_ls_partial",
    "OpenSBLI.Order.C102_text_ls4_partial",
    "OpenSBLI.Sim.C102_heat",
    "OpenSBLI.Sim.C102_heat_principle",
    "OpenSBLI.Sim.C102_decay",
    "OpenSBLI.Sim.C102_limit",
    "OpenSBLI.Sim.C102_heat_ls4",
    "OpenSBLI.Sim.C102_heat_principle_ls",
    "OpenSBLI.Sim.C102_heat_principle_ls4",
    "OpenSBLI.Order.C102_principle",
    "OpenSBLI.Order.C102_principle_ls",
    "OpenSBLI.Order.C102_convergence",
    "OpenSBLI.Order.C102_convergence_ls",
    "OpenSBLI.Order.C102_text_partial",
    "OpenSBLI.Bc.C102_rod",
    "OpenSBLI.Bc.C102_rod_heat",
    "OpenSBLI.Bc.C102_rod_equilibrium",
    "OpenSBLI.Bc.C102_rod_limit"
   ],
   "note": "C102_principle, C102_principle_ls, C102_principle_ls4: the bounds, for the default scheme and the low storage schemes of orders three and four, with the limit of Euler's method; C102_text_principle_partial, C102_text_principle_ls_partial, C102_text_principle_ls4_partial: for the printed programs, at their end and in the files with a number. C102_convergence, C102_convergence_ls, C102_convergence_ls4: convergence in the maximum norm, of order four in time up to the last digit of the decimals of the source; C102_text_partial, C102_text_ls_partial, C102_text_ls4_partial: of what the printed programs compute. C102_heat, C102_heat_ls4, C102_heat_principle, C102_heat_principle_ls, C102_heat_principle_ls4, C102_decay: whole programs, about which nothing is assumed. C102_rod: the same with symmetry conditions at both ends, whose kernels are part of the program; C102_rod_heat: it keeps the heat; C102_rod_equilibrium, C102_rod_limit: its values tend to the average. C102_limit: beyond the limit a step leaves the bounds. Partial: as C85 (arithmetic of real numbers, boundary conditions that are exchanges, apart from the rod), differences of second order, constant coefficients."
  },
  {
   "property": "C103",
   "status": "partial",
   "theorems": [
    "OpenSBLI.Tex.C103_equation_lost",
    "OpenSBLI.Tex.C103_document",
    "OpenSBLI.Tex.C103_equations",
    "OpenSBLI.Tex.C103_program_partial",
    "OpenSBLI.Tex.C103_underscore",
    "OpenSBLI.Tex.C103_exchange",
    "OpenSBLI.Tex.C103_two_indices",
    "OpenSBLI.Tex.C103_piecewise",
    "OpenSBLI.Tex.C103_condition"
   ],
   "note": "C103_document: a reader for TeX's tokens, groups, environments and scripts finds exactly the strings and expressions given; C103_equations: for the equations of a class, from what SymPy prints for the parts. C103_program_partial: for the algorithm. It fails for real programs: names with an underscore in strings, as those of all exchanged arrays (C103_underscore, C103_exchange), terms with two indices (C103_two_indices), GroupedPiecewise (C103_piecewise), and everything written after a condition up to the end of the line is hidden by a percent sign (C103_condition, C103_equation_lost). Partial: the reader expands no macros; SymPy's printer and the regular expression of textwrap are parameters with the properties used stated."
  }
 ]
}
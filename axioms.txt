'OpenSBLI.SortDict.C01_order_respects_dependencies' depends on axioms: [propext, Classical.choice, Quot.sound]
'OpenSBLI.SortDict.C01_iteration_order_irrelevant' depends on axioms: [propext, Classical.choice, Quot.sound]
'OpenSBLI.SortDict.C02_succeeds_iff_resolvable_in_budget' depends on axioms: [propext, Classical.choice, Quot.sound]
'OpenSBLI.SortDict.C02_succeeds_iff_resolvable' depends on axioms: [propext, Classical.choice, Quot.sound]
'OpenSBLI.SortDict.C02_unresolvable_raises' depends on axioms: [propext, Classical.choice, Quot.sound]
'OpenSBLI.SortDict.C02_budget_rejects_resolvable' depends on axioms: [propext, Classical.choice, Quot.sound]
'OpenSBLI.RK.C03_step_is_third_order_RK' depends on axioms: [propext, Classical.choice, Quot.sound]
'OpenSBLI.RK.C03_linear_amplification' depends on axioms: [propext, Classical.choice, Quot.sound]
'OpenSBLI.RK.C04_registers_agree' depends on axioms: [propext, Quot.sound]
'OpenSBLI.RK.C04_stale_work_arrays_irrelevant' depends on axioms: [propext, Quot.sound]
'OpenSBLI.RK.C04_steady_state_preserved' depends on axioms: [propext, Quot.sound]
'OpenSBLI.RK.C04_linear_invariants' depends on axioms: [propext, Quot.sound]
'OpenSBLI.RK.C05_order3_is_third_order_RK' depends on axioms: [propext, Classical.choice, Quot.sound]
'OpenSBLI.RK.C05_order4_is_fourth_order_RK' depends on axioms: [propext, Classical.choice, Quot.sound]
'OpenSBLI.RK.C05_order4_not_exact' depends on axioms: [propext, Classical.choice, Quot.sound]
'OpenSBLI.RK.C05_stale_register_irrelevant' depends on axioms: [propext, Quot.sound]
'OpenSBLI.RK.C05_first_coefficient_zero' depends on axioms: [propext, Classical.choice, Quot.sound]
'OpenSBLI.RK.C05_steady_state_preserved' depends on axioms: [propext, Quot.sound]
'OpenSBLI.RK.C05_linear_invariants' depends on axioms: [propext, Quot.sound]
'OpenSBLI.RK.C05_linear_amplification' depends on axioms: [propext, Classical.choice, Quot.sound]
'OpenSBLI.RK.C05_ssp_linear_amplification' depends on axioms: [propext, Classical.choice, Quot.sound]
'OpenSBLI.RK.C05_order4_linear_amplification' depends on axioms: [propext, Classical.choice, Quot.sound]
'OpenSBLI.RK.C05_ssp_is_third_order_RK' depends on axioms: [propext, Classical.choice, Quot.sound]
'OpenSBLI.Weno.C06_candidate_exact_on_polynomials' depends on axioms: [propext, Classical.choice, Quot.sound]
'OpenSBLI.Weno.C06_coefficients_sum_to_one' depends on axioms: [propext, Classical.choice, Quot.sound]
'OpenSBLI.Weno.C07_weights_unique' depends on axioms: [propext, Classical.choice, Quot.sound]
'OpenSBLI.Weno.C07_weights_merge_candidates' depends on axioms: [propext, Classical.choice, Quot.sound]
'OpenSBLI.Weno.C07_optimal_reconstruction_exact' depends on axioms: [propext, Classical.choice, Quot.sound]
'OpenSBLI.Weno.C07_weights_sum_to_one' depends on axioms: [propext, Classical.choice, Quot.sound]
'OpenSBLI.Weno.C07_weights_positive' depends on axioms: [propext, Classical.choice, Quot.sound]
'OpenSBLI.Weno.C08_candidate_mirror' depends on axioms: [propext, Classical.choice, Quot.sound]
'OpenSBLI.Weno.C08_coefficients_mirror' depends on axioms: [propext, Classical.choice, Quot.sound]
'OpenSBLI.Weno.C08_points_mirror' depends on axioms: [propext, Quot.sound]
'OpenSBLI.Weno.C08_weights_mirror' depends on axioms: [propext, Classical.choice, Quot.sound]
'OpenSBLI.Weno.C08_indicator_mirror' depends on axioms: [propext, Classical.choice, Quot.sound]
'OpenSBLI.Weno.C08_reconstruction_mirror' depends on axioms: [propext, Classical.choice, Quot.sound]
'OpenSBLI.Weno.C09_denominators_positive' depends on axioms: [propext, Classical.choice, Quot.sound]
'OpenSBLI.Weno.C09_weights_convex' depends on axioms: [propext, Classical.choice, Quot.sound]
'OpenSBLI.Weno.C09_weights_defined' depends on axioms: [propext, Classical.choice, Quot.sound]
'OpenSBLI.Weno.C09_reconstruction_between_candidates' depends on axioms: [propext, Classical.choice, Quot.sound]
'OpenSBLI.Weno.C09_constant_exact' depends on axioms: [propext, Classical.choice, Quot.sound]
'OpenSBLI.Weno.C09_equal_indicators_give_linear_weights' depends on axioms: [propext, Classical.choice, Quot.sound]
'OpenSBLI.Weno.C10_indicator_is_jiang_shu' depends on axioms: [propext, Classical.choice, Quot.sound]
'OpenSBLI.Weno.C10_candidate_polynomial_exists' depends on axioms: [propext, Classical.choice, Quot.sound]
'OpenSBLI.Weno.C10_extraction_in_stencil' depends on axioms: [propext, Classical.choice, Quot.sound]
'OpenSBLI.Weno.C10_indicator_nonneg' depends on axioms: [propext, Classical.choice, Quot.sound]
'OpenSBLI.Weno.C10_indicator_zero_iff_constant' depends on axioms: [propext, Classical.choice, Quot.sound]
'OpenSBLI.Teno.C11_cutoff_sharp' depends on axioms: [propext, Classical.choice, Quot.sound]
'OpenSBLI.Teno.C11_weights_convex' depends on axioms: [propext, Classical.choice, Quot.sound]
'OpenSBLI.Teno.C11_weight_zero_iff_cut' depends on axioms: [propext, Classical.choice, Quot.sound]
'OpenSBLI.Teno.C11_all_survive_linear' depends on axioms: [propext, Classical.choice, Quot.sound]
'OpenSBLI.Teno.C11_equal_indicators_linear' depends on axioms: [propext, Classical.choice, Quot.sound]
'OpenSBLI.Teno.C11_between_candidates_partial' depends on axioms: [propext, Classical.choice, Quot.sound]
'OpenSBLI.Teno.C11_constant_exact' depends on axioms: [propext, Classical.choice, Quot.sound]
'OpenSBLI.Teno.C11_adaptive_cutoff_valid' depends on axioms: [propext, Classical.choice, Quot.sound]
'OpenSBLI.Teno.C11_adaptive_cutoff_monotone' depends on axioms: [propext, Classical.choice, Quot.sound]
'OpenSBLI.Teno.C11_large_cutoff_divides_by_zero' depends on axioms: [propext, Classical.choice, Quot.sound]
'OpenSBLI.Teno.C11_six_reference_nonzero_on_linear' depends on axioms: [propext, Classical.choice, Quot.sound]
'OpenSBLI.Teno.C11_five_shock_not_cut' depends on axioms: [propext, Classical.choice, Quot.sound]
'OpenSBLI.Teno.C11_weights_any_data_partial' depends on axioms: [propext, Classical.choice, Quot.sound]
'OpenSBLI.Teno.C11_between_any_data_partial' depends on axioms: [propext, Classical.choice, Quot.sound]
'OpenSBLI.Teno.C12_candidate_exact' depends on axioms: [propext, Classical.choice, Quot.sound]
'OpenSBLI.Teno.C12_linear_weights_sum_to_one' depends on axioms: [propext, Classical.choice, Quot.sound]
'OpenSBLI.Teno.C12_linear_weights_positive' depends on axioms: [propext, Classical.choice, Quot.sound]
'OpenSBLI.Teno.C12_linear_scheme_exact_partial' depends on axioms: [propext, Classical.choice, Quot.sound]
'OpenSBLI.Teno.C12_five_not_fifth_order' depends on axioms: [propext, Classical.choice, Quot.sound]
'OpenSBLI.Teno.C12_six_not_sixth_order' depends on axioms: [propext, Classical.choice, Quot.sound]
'OpenSBLI.Teno.C13_indicator_is_jiang_shu_partial' depends on axioms: [propext, Classical.choice, Quot.sound]
'OpenSBLI.Teno.C13_indicator_nonneg_partial' depends on axioms: [propext, Classical.choice, Quot.sound]
'OpenSBLI.Teno.C13_indicator_constant' depends on axioms: [propext, Classical.choice, Quot.sound]
'OpenSBLI.Teno.C13_indicator_mirror_partial' depends on axioms: [propext, Classical.choice, Quot.sound]
'OpenSBLI.Teno.C13_candidate_mirror' depends on axioms: [propext, Classical.choice, Quot.sound]
'OpenSBLI.Teno.C13_six_right_indicator_negative' depends on axioms: [propext, Classical.choice, Quot.sound]
'OpenSBLI.Teno.C13_six_zero_denominator' depends on axioms: [propext, Classical.choice, Quot.sound]
'OpenSBLI.Teno.C13_six_mirror_fails' depends on axioms: [propext, Classical.choice, Quot.sound]
'OpenSBLI.Teno.C13_five_reconstruction_mirror' depends on axioms: [propext, Classical.choice, Quot.sound]
'OpenSBLI.Llf.C14_telescoping' depends on axioms: [propext, Classical.choice, Quot.sound]
'OpenSBLI.Llf.C14_periodic_residual_sum' depends on axioms: [propext, Classical.choice, Quot.sound]
'OpenSBLI.Llf.C14_periodic_conservation' depends on axioms: [propext, Classical.choice, Quot.sound]
'OpenSBLI.Llf.C15_split_sum' depends on axioms: [propext, Classical.choice, Quot.sound]
'OpenSBLI.Llf.C15_max_wave_speed' depends on axioms: [propext, Classical.choice, Quot.sound]
'OpenSBLI.Llf.C15_stencil_local' depends on axioms: [propext, Classical.choice, Quot.sound]
'OpenSBLI.Llf.C15_stencil_points' depends on axioms: [propext, Classical.choice, Quot.sound]
'OpenSBLI.Llf.C15_uniform_flux' depends on axioms: [propext, Classical.choice, Quot.sound]
'OpenSBLI.Llf.C15_upwind_linear' depends on axioms: [propext, Classical.choice, Quot.sound]
'OpenSBLI.Llf.C15_split_speeds' depends on axioms: [propext, Classical.choice, Quot.sound]
'OpenSBLI.Llf.C15_uniform_euler_3d' depends on axioms: [propext, Classical.choice, Quot.sound]
'OpenSBLI.Euler.C16_inverse_1d' depends on axioms: [propext, Classical.choice, Quot.sound]
'OpenSBLI.Euler.C16_inverse_2d' depends on axioms: [propext, Classical.choice, Quot.sound]
'OpenSBLI.Euler.C16_inverse_3d' depends on axioms: [propext, Classical.choice, Quot.sound]
'OpenSBLI.Euler.C16_eigenvectors_1d' depends on axioms: [propext, Classical.choice, Quot.sound]
'OpenSBLI.Euler.C16_eigenvectors_2d' depends on axioms: [propext, Classical.choice, Quot.sound]
'OpenSBLI.Euler.C16_eigenvectors_3d' depends on axioms: [propext, Classical.choice, Quot.sound]
'OpenSBLI.Euler.C16_jacobian_1d' depends on axioms: [propext, Classical.choice, Quot.sound]
'OpenSBLI.Euler.C16_jacobian_2d' depends on axioms: [propext, Classical.choice, Quot.sound]
'OpenSBLI.Euler.C16_jacobian_3d' depends on axioms: [propext, Classical.choice, Quot.sound]
'OpenSBLI.Llf.C17_simple_average' depends on axioms: [propext, Classical.choice, Quot.sound]
'OpenSBLI.Llf.C17_roe_consistent' depends on axioms: [propext, Classical.choice, Quot.sound]
'OpenSBLI.Llf.C17_roe_symmetric' depends on axioms: [propext, Classical.choice, Quot.sound]
'OpenSBLI.Llf.C17_roe_between' depends on axioms: [propext, Classical.choice, Quot.sound]
'OpenSBLI.Llf.C17_roe_sound_speed_positive' depends on axioms: [propext, Classical.choice, Quot.sound]
'OpenSBLI.Llf.C17_roe_property_3d' depends on axioms: [propext, Classical.choice, Quot.sound]
'OpenSBLI.Llf.C17_roe_property_2d' depends on axioms: [propext, Classical.choice, Quot.sound]
'OpenSBLI.Llf.C17_roe_property_1d' depends on axioms: [propext, Classical.choice, Quot.sound]
'OpenSBLI.Central.C18_exact' depends on axioms: [propext, Classical.choice, Quot.sound]
'OpenSBLI.Central.C18_parity' depends on axioms: [propext, Classical.choice, Quot.sound]
'OpenSBLI.Central.C18_annihilates_constants' depends on axioms: [propext, Classical.choice, Quot.sound]
'OpenSBLI.Central.C18_even_exact' depends on axioms: [propext, Classical.choice, Quot.sound]
'OpenSBLI.Central.C18_points_in_halo' depends on axioms: [propext, Classical.choice, Quot.sound]
'OpenSBLI.Central.C18_fourth_order_weights' depends on axioms: [propext, Classical.choice, Quot.sound]
'OpenSBLI.Central.C19_sum_zero' depends on axioms: [propext, Classical.choice, Quot.sound]
'OpenSBLI.Central.C19_adjoint' depends on axioms: [propext, Classical.choice, Quot.sound]
'OpenSBLI.Central.C19_skew_conservative' depends on axioms: [propext, Classical.choice, Quot.sound]
'OpenSBLI.Central.C19_skew_energy' depends on axioms: [propext, Classical.choice, Quot.sound]
'OpenSBLI.Central.C19_skew_energy_conserved' depends on axioms: [propext, Classical.choice, Quot.sound]
'OpenSBLI.Central.C19_periodic_conservation' depends on axioms: [propext, Classical.choice, Quot.sound]
'OpenSBLI.Central.C20_equivalent_partial' depends on axioms: [propext, Classical.choice, Quot.sound]
'OpenSBLI.Central.C20_rejected' depends on axioms: [propext, Classical.choice, Quot.sound]
'OpenSBLI.Central.C20_three_factors_rejected' depends on axioms: [propext, Classical.choice, Quot.sound]
'OpenSBLI.Central.C20_single_symbol_rejected' depends on axioms: [propext, Quot.sound]
'OpenSBLI.Central.C20_power_wrong' depends on axioms: [propext, Classical.choice, Quot.sound]
'OpenSBLI.Central.C20_sum_wrong' depends on axioms: [propext, Classical.choice, Quot.sound]
'OpenSBLI.Closure.C21_exact_everywhere' depends on axioms: [propext, Classical.choice, Quot.sound]
'OpenSBLI.Closure.C21_norm_positive' depends on axioms: [propext, Classical.choice, Quot.sound]
'OpenSBLI.Closure.C21_summation_by_parts' depends on axioms: [propext, Classical.choice, Quot.sound]
'OpenSBLI.Closure.C21_energy_rate' depends on axioms: [propext, Classical.choice, Quot.sound]
'OpenSBLI.Closure.C21_conservation' depends on axioms: [propext, Classical.choice, Quot.sound]
'OpenSBLI.Closure.C22_exact_partial' depends on axioms: [propext, Classical.choice, Quot.sound]
'OpenSBLI.Closure.C22_reduced_order_right_second_wrong' depends on axioms: [propext, Classical.choice, Quot.sound]
'OpenSBLI.Closure.C22_mirror' depends on axioms: [propext, Classical.choice, Quot.sound]
'OpenSBLI.Closure.C23_left_points' depends on axioms: [propext, Classical.choice, Quot.sound]
'OpenSBLI.Closure.C23_right_points' depends on axioms: [propext, Classical.choice, Quot.sound]
'OpenSBLI.Closure.C23_interior_points' depends on axioms: [propext, Classical.choice, Quot.sound]
'OpenSBLI.Closure.C23_unsupported_order' depends on axioms: [propext, Classical.choice, Quot.sound]
'OpenSBLI.Closure.C23_no_closure' depends on axioms: [propext, Classical.choice, Quot.sound]
'OpenSBLI.Closure.C23_in_domain_partial' depends on axioms: [propext, Classical.choice, Quot.sound]
'OpenSBLI.Closure.C23_wide_interior_leaks' depends on axioms: [propext, Classical.choice, Quot.sound]
'OpenSBLI.Ranges.C24_periodic_image' depends on axioms: [propext, Classical.choice, Quot.sound]
'OpenSBLI.Ranges.C24_block_periodic_partial' depends on axioms: [propext, Classical.choice, Quot.sound]
'OpenSBLI.Ranges.C24_interior_unchanged' depends on axioms: [propext, Classical.choice, Quot.sound]
'OpenSBLI.Ranges.C24_asymmetric_halo_not_filled' depends on axioms: [propext, Classical.choice, Quot.sound]
'OpenSBLI.Ranges.C24_direction_dependent_halos_wrong' depends on axioms: [propext, Classical.choice, Quot.sound]
'OpenSBLI.Bc.C25_symmetry' depends on axioms: [propext, Classical.choice, Quot.sound]
'OpenSBLI.Bc.C25_symmetry_frame' depends on axioms: [propext, Classical.choice, Quot.sound]
'OpenSBLI.Bc.C25_mirror_unique' depends on axioms: [propext, Classical.choice, Quot.sound]
'OpenSBLI.Bc.C25_mirror_involution' depends on axioms: [propext, Classical.choice, Quot.sound]
'OpenSBLI.Bc.C25_mirror_energy' depends on axioms: [propext, Classical.choice, Quot.sound]
'OpenSBLI.Bc.C25_symmetry_gas_state' depends on axioms: [propext, Classical.choice, Quot.sound]
'OpenSBLI.Bc.C25_inviscid_wall' depends on axioms: [propext, Classical.choice, Quot.sound]
'OpenSBLI.Bc.C25_wall_tangential_partial' depends on axioms: [propext, Classical.choice, Quot.sound]
'OpenSBLI.Bc.C25_wall_not_tangential' depends on axioms: [propext, Classical.choice, Quot.sound]
'OpenSBLI.Bc.C26_zeroth_order' depends on axioms: [propext, Classical.choice, Quot.sound]
'OpenSBLI.Bc.C26_first_order' depends on axioms: [propext, Classical.choice, Quot.sound]
'OpenSBLI.Bc.C26_other_orders_rejected' depends on axioms: [propext, Classical.choice, Quot.sound]
'OpenSBLI.Bc.C26_zero_gradient' depends on axioms: [propext, Classical.choice, Quot.sound]
'OpenSBLI.Bc.C27_no_slip' depends on axioms: [propext, Classical.choice, Quot.sound]
'OpenSBLI.Bc.C27_wall_temperature' depends on axioms: [propext, Classical.choice, Quot.sound]
'OpenSBLI.Bc.C27_halo' depends on axioms: [propext, Classical.choice, Quot.sound]
'OpenSBLI.Bc.C27_frame' depends on axioms: [propext, Classical.choice, Quot.sound]
'OpenSBLI.Bc.C27_isothermal_wall' depends on axioms: [propext, Classical.choice, Quot.sound]
'OpenSBLI.Bc.C27_negative_density' depends on axioms: [propext, Classical.choice, Quot.sound]
'OpenSBLI.Bc.C28_one_sided_exact' depends on axioms: [propext, Classical.choice, Quot.sound]
'OpenSBLI.Bc.C28_halo' depends on axioms: [propext, Classical.choice, Quot.sound]
'OpenSBLI.Bc.C28_wall' depends on axioms: [propext, Classical.choice, Quot.sound]
'OpenSBLI.Bc.C28_carpenter_wall' depends on axioms: [propext, Classical.choice, Quot.sound]
'OpenSBLI.Bc.C28_carpenter_exact' depends on axioms: [propext, Classical.choice, Quot.sound]
'OpenSBLI.Bc.C29_pressure_outlet' depends on axioms: [propext, Classical.choice, Quot.sound]
'OpenSBLI.Bc.C29_wrong_side_rejected' depends on axioms: [propext, Classical.choice, Quot.sound]
'OpenSBLI.Bc.C29_inlet_transfer' depends on axioms: [propext, Classical.choice, Quot.sound]
'OpenSBLI.Bc.C29_inlet_pressure' depends on axioms: [propext, Classical.choice, Quot.sound]
'OpenSBLI.Bc.C29_inlet_halo_pressure_partial' depends on axioms: [propext, Classical.choice, Quot.sound]
'OpenSBLI.Bc.C29_inlet_halo_pressure_wrong' depends on axioms: [propext, Classical.choice, Quot.sound]
'OpenSBLI.Bc.C29_inlet_lawal' depends on axioms: [propext, Classical.choice, Quot.sound]
'OpenSBLI.MultiBlock.C30_interface_partial' depends on axioms: [propext, Classical.choice, Quot.sound]
'OpenSBLI.MultiBlock.C30_three_entries_upper_partial' depends on axioms: [propext, Classical.choice, Quot.sound]
'OpenSBLI.MultiBlock.C30_three_entries_lower_reversed' depends on axioms: [propext, Classical.choice, Quot.sound]
'OpenSBLI.MultiBlock.C30_rotated_not_filled' depends on axioms: [propext, Classical.choice, Quot.sound]
'OpenSBLI.MultiBlock.C30_asymmetric_upper_wrong' depends on axioms: [propext, Classical.choice, Quot.sound]
'OpenSBLI.Ranges.C31_boundary_plane' depends on axioms: [propext, Classical.choice, Quot.sound]
'OpenSBLI.Ranges.C31_sides_disjoint' depends on axioms: [propext, Classical.choice, Quot.sound]
'OpenSBLI.Ker.C32_match_iff' depends on axioms: [propext, Classical.choice, Quot.sound]
'OpenSBLI.Ker.C32_mixed_mismatch' depends on axioms: [propext, Classical.choice, Quot.sound]
'OpenSBLI.Ker.C32_access_number' depends on axioms: [propext, Classical.choice, Quot.sound]
'OpenSBLI.Ker.C32_indexed_by_symbol' depends on axioms: [propext]
'OpenSBLI.Ker.C32_literal_index_doubled' depends on axioms: [propext, Classical.choice, Quot.sound]
'OpenSBLI.Ker.C32_duplicate_parameter' depends on axioms: [propext, Classical.choice, Quot.sound]
'OpenSBLI.Ker.C32_index_passed_if_needed' depends on axioms: [propext, Classical.choice, Quot.sound]
'OpenSBLI.Ker.C32_global_passed_if_needed' depends on axioms: [propext, Classical.choice, Quot.sound]
'OpenSBLI.Ker.C32_indexed_constant_passed_if_needed' depends on axioms: [propext, Classical.choice, Quot.sound]
'OpenSBLI.Ker.C33_modes' depends on axioms: [propext, Classical.choice, Quot.sound]
'OpenSBLI.Ker.C33_read_only_unchanged' depends on axioms: [propext, Classical.choice, Quot.sound]
'OpenSBLI.Ker.C33_write_only_not_read' depends on axioms: [propext, Classical.choice, Quot.sound]
'OpenSBLI.Ker.C33_conditional_write_keeps_old' depends on axioms: [propext, Classical.choice, Quot.sound]
'OpenSBLI.Ker.C33_global_output_read_only' depends on axioms: [propext, Classical.choice, Quot.sound]
'OpenSBLI.Ker.C34_writes_within_stencil' depends on axioms: [propext, Classical.choice, Quot.sound]
'OpenSBLI.Ker.C34_reads_within_stencil' depends on axioms: [propext, Classical.choice, Quot.sound]
'OpenSBLI.Reg.C34_stencil_is_accesses' depends on axioms: [propext, Classical.choice, Quot.sound]
'OpenSBLI.Reg.C34_stencil_names_unique' depends on axioms: [propext, Classical.choice, Quot.sound]
'OpenSBLI.Reg.C34_stencil_covers_accesses' depends on axioms: [propext, Classical.choice, Quot.sound]
'OpenSBLI.Reg.C34_declared_array' depends on axioms: [propext, Classical.choice, Quot.sound]
'OpenSBLI.Ranges.C35_smallest_range' depends on axioms: [propext, Classical.choice, Quot.sound]
'OpenSBLI.Ranges.C35_order_independent' depends on axioms: [propext, Classical.choice, Quot.sound]
'OpenSBLI.Mem.C36_central_iff' depends on axioms: [propext, Classical.choice, Quot.sound]
'OpenSBLI.Mem.C36_central_same_direction' depends on axioms: [propext, Classical.choice, Quot.sound]
'OpenSBLI.Mem.C36_pointwise' depends on axioms: [propext, Classical.choice, Quot.sound]
'OpenSBLI.Mem.C36_weno_iff' depends on axioms: [propext, Classical.choice, Quot.sound]
'OpenSBLI.Mem.C36_teno' depends on axioms: [propext, Classical.choice, Quot.sound]
'OpenSBLI.Mem.C36_flux_difference' depends on axioms: [propext, Classical.choice, Quot.sound]
'OpenSBLI.Mem.C36_boundary' depends on axioms: [propext, Classical.choice, Quot.sound]
'OpenSBLI.Mem.C36_residual_name' depends on axioms: [propext, Classical.choice, Quot.sound]
'OpenSBLI.Mem.C36_halos_by_name' depends on axioms: [propext, Classical.choice, Quot.sound]
'OpenSBLI.Ker.C37_order_independent' depends on axioms: [propext, Classical.choice, Quot.sound]
'OpenSBLI.Ker.C37_simultaneous' depends on axioms: [propext, Classical.choice, Quot.sound]
'OpenSBLI.Ker.C37_pointwise_kernels' depends on axioms: [propext, Classical.choice, Quot.sound]
'OpenSBLI.Ker.C37_boundary_kernels' depends on axioms: [propext, Quot.sound]
'OpenSBLI.Ker.C37_in_place_order_dependent' depends on axioms: [propext, Classical.choice, Quot.sound]
'OpenSBLI.Reg.C38_declared_once' depends on axioms: [propext, Quot.sound]
'OpenSBLI.Reg.C38_first_registration_wins' depends on axioms: [propext]
'OpenSBLI.Reg.C38_declared_before_use' depends on axioms: [propext]
'OpenSBLI.Reg.C38_values_in_program' depends on axioms: [propext, Quot.sound]
'OpenSBLI.Reg.C38_use_before_declaration' depends on axioms: [propext, Classical.choice, Quot.sound]
'OpenSBLI.Reg.C39_declared_with_value' depends on axioms: [propext, Classical.choice, Quot.sound]
'OpenSBLI.Reg.C39_same_name_iff_same_value' depends on axioms: [propext, Classical.choice, Quot.sound]
'OpenSBLI.Reg.C39_user_constant_collision' depends on axioms: [propext]
'OpenSBLI.Text.C40_line_preserves_words' depends on axioms: [propext, Quot.sound]
'OpenSBLI.Text.C40_file_preserves_words' depends on axioms: [propext, Quot.sound]
'OpenSBLI.Text.C40_nonblank_characters' depends on axioms: [propext, Quot.sound]
'OpenSBLI.Text.C40_short_lines' depends on axioms: [propext, Quot.sound]
'OpenSBLI.Text.C40_line_length' depends on axioms: [propext, Classical.choice, Quot.sound]
'OpenSBLI.Text.C41_nested_maximum' depends on axioms: [propext, Quot.sound]
'OpenSBLI.Alg.C42_run_partial' depends on axioms: [propext, Classical.choice, Quot.sound]
'OpenSBLI.Alg.C42_sorted' depends on axioms: [propext, Quot.sound]
'OpenSBLI.Alg.C42_sort_stable' depends on axioms: [propext, Classical.choice, Quot.sound]
'OpenSBLI.Alg.C42_generation_succeeds_iff' depends on axioms: [propext, Quot.sound]
'OpenSBLI.Alg.C42_boundary_values_fresh' depends on axioms: [propext, Classical.choice, Quot.sound]
'OpenSBLI.Alg.C42_two_systems_lose_kernels' depends on axioms: [propext, Classical.choice, Quot.sound]
'OpenSBLI.Alg.C43_periodic_output' depends on axioms: [propext, Classical.choice, Quot.sound]
'OpenSBLI.Alg.C43_number_of_outputs' depends on axioms: [propext, Classical.choice, Quot.sound]
'OpenSBLI.Alg.C43_saved_state' depends on axioms: [propext, Classical.choice, Quot.sound]
'OpenSBLI.Alg.C43_final_output_only' depends on axioms: [propext, Classical.choice, Quot.sound]
'OpenSBLI.Alg.C43_reading_writes_nothing' depends on axioms: [propext, Classical.choice, Quot.sound]
'OpenSBLI.Alg.C43_file_names_differ' depends on axioms: [propext, Classical.choice, Quot.sound]
'OpenSBLI.Alg.C43_named_periodic_output_raises' depends on axioms: [propext, Quot.sound]
'OpenSBLI.Alg.C43_declarations_partial' depends on axioms: [propext, Classical.choice, Quot.sound]
'OpenSBLI.Alg.C43_two_unnamed_outputs_clash' depends on axioms: [propext, Classical.choice, Quot.sound]
'OpenSBLI.Alg.C44_kernels_emitted_once' depends on axioms: [propext, Quot.sound]
'OpenSBLI.Alg.C44_called_kernels_are_defined' depends on axioms: [propext, Quot.sound]
'OpenSBLI.Text.C45_exact' depends on axioms: [propext, Quot.sound]
'OpenSBLI.Text.C45_last_value_wins' depends on axioms: [propext, Quot.sound]
'OpenSBLI.Text.C45_own_value_partial' depends on axioms: [propext, Quot.sound]
'OpenSBLI.Text.C45_suffix_collision' depends on axioms: [propext, Quot.sound]
'OpenSBLI.Reg.C46_kernel_names_unique' depends on axioms: [propext, Classical.choice, Quot.sound]
'OpenSBLI.Reg.C46_one_name_per_kernel' depends on axioms: [propext]
'OpenSBLI.Reg.C46_reset_duplicates' depends on axioms: [propext, Classical.choice, Quot.sound]
'OpenSBLI.Res.C47_central_partial' depends on axioms: [propext, Classical.choice, Quot.sound]
'OpenSBLI.Res.C47_weno' depends on axioms: [propext, Classical.choice, Quot.sound]
'OpenSBLI.Res.C47_hybrid_partial' depends on axioms: [propext, Classical.choice, Quot.sound]
'OpenSBLI.Res.C47_stale_residual' depends on axioms: [propext, Classical.choice, Quot.sound]
'OpenSBLI.Res.C47_source_dropped' depends on axioms: [propext, Classical.choice, Quot.sound]
'OpenSBLI.Res.C47_function_dropped' depends on axioms: [propext, Classical.choice, Quot.sound]
'OpenSBLI.Res.C47_bare_dropped' depends on axioms: [propext, Classical.choice, Quot.sound]
'OpenSBLI.Res.C47_source_twice' depends on axioms: [propext, Classical.choice, Quot.sound]
'OpenSBLI.Res.C47_overwritten' depends on axioms: [propext, Classical.choice, Quot.sound]
'OpenSBLI.Res.C47_scheme_order' depends on axioms: [propext, Classical.choice, Quot.sound]
'OpenSBLI.Work.C48_convective' depends on axioms: [propext, Classical.choice, Quot.sound]
'OpenSBLI.Work.C48_viscous_partial' depends on axioms: [propext, Classical.choice, Quot.sound]
'OpenSBLI.Work.C48_same_direction' depends on axioms: [propext, Classical.choice, Quot.sound]
'OpenSBLI.Work.C48_substitution_order' does not depend on any axioms
'OpenSBLI.Work.C48_replacement' depends on axioms: [propext]
'OpenSBLI.Ein.C49_value_unique' depends on axioms: [propext, Classical.choice, Quot.sound]
'OpenSBLI.Ein.C49_summation' depends on axioms: [propext, Classical.choice, Quot.sound]
'OpenSBLI.Ein.C49_equations' depends on axioms: [propext, Classical.choice, Quot.sound]
'OpenSBLI.Ein.C49_rejected' depends on axioms: [propext, Classical.choice, Quot.sound]
'OpenSBLI.Ein.C49_order_arbitrary' depends on axioms: [propext]
'OpenSBLI.Ein.C50_apply_index' depends on axioms: [propext, Classical.choice, Quot.sound]
'OpenSBLI.Ein.C50_all_indices' depends on axioms: [propext, Classical.choice, Quot.sound]
'OpenSBLI.Ein.C50_distinct' depends on axioms: [propext, Classical.choice, Quot.sound]
'OpenSBLI.Ein.C50_prefix_capture' depends on axioms: [propext, Classical.choice, Quot.sound]
'OpenSBLI.Ein.C50_collision' depends on axioms: [propext, Classical.choice, Quot.sound]
'OpenSBLI.Tensor.C51_delta' depends on axioms: [propext, Classical.choice, Quot.sound]
'OpenSBLI.Tensor.C51_delta_contraction' depends on axioms: [propext, Classical.choice, Quot.sound]
'OpenSBLI.Tensor.C51_delta_trace' depends on axioms: [propext, Classical.choice, Quot.sound]
'OpenSBLI.Tensor.C51_delta_product' depends on axioms: [propext, Classical.choice, Quot.sound]
'OpenSBLI.Tensor.C51_antisymmetric' depends on axioms: [propext, Classical.choice, Quot.sound]
'OpenSBLI.Tensor.C51_sign' depends on axioms: [propext, Classical.choice, Quot.sound]
'OpenSBLI.Tensor.C51_epsilon_delta' depends on axioms: [propext, Classical.choice, Quot.sound]
'OpenSBLI.Tensor.C51_epsilon_epsilon' depends on axioms: [propext, Classical.choice, Quot.sound]
'OpenSBLI.Tensor.C51_cross_product' depends on axioms: [propext, Classical.choice, Quot.sound]
'OpenSBLI.Tensor.C51_determinant' depends on axioms: [propext, Classical.choice, Quot.sound]
'OpenSBLI.Filters.C52_exact_flow' depends on axioms: [propext, Classical.choice, Quot.sound]
'OpenSBLI.Filters.C52_invariants' depends on axioms: [propext, Classical.choice, Quot.sound]
'OpenSBLI.Filters.C52_local' depends on axioms: [propext, Classical.choice, Quot.sound]
'OpenSBLI.Filters.C52_steady_iff' depends on axioms: [propext, Classical.choice, Quot.sound]
'OpenSBLI.Filters.C52_limit' depends on axioms: [propext, Classical.choice, Quot.sound]
'OpenSBLI.Filters.C52_initial' depends on axioms: [propext, Classical.choice, Quot.sound]
'OpenSBLI.Filters.C53_accepted_iff' depends on axioms: [propext, Classical.choice, Quot.sound]
'OpenSBLI.Filters.C53_weights' depends on axioms: [propext, Classical.choice, Quot.sound]
'OpenSBLI.Filters.C53_preserves_linear' depends on axioms: [propext, Classical.choice, Quot.sound]
'OpenSBLI.Filters.C53_maximum_principle' depends on axioms: [propext, Classical.choice, Quot.sound]
'OpenSBLI.Filters.C53_response' depends on axioms: [propext, Classical.choice, Quot.sound]
'OpenSBLI.Filters.C53_response_bounds' depends on axioms: [propext, Classical.choice, Quot.sound]
'OpenSBLI.Filters.C53_checkerboard' depends on axioms: [propext, Classical.choice, Quot.sound]
'OpenSBLI.Filters.C53_condition' depends on axioms: [propext, Classical.choice, Quot.sound]
'OpenSBLI.Filters.C53_negative_order' depends on axioms: [propext, Classical.choice, Quot.sound]
'OpenSBLI.Filters.C53_order_dependence' depends on axioms: [propext, Classical.choice, Quot.sound]
'OpenSBLI.Filters.C53_in_place_partial' depends on axioms: [propext, Classical.choice, Quot.sound]
'OpenSBLI.Filters.C53_in_place_linear' depends on axioms: [propext, Classical.choice, Quot.sound]
'OpenSBLI.Filters.C53_in_place_maximum' depends on axioms: [propext, Classical.choice, Quot.sound]
'OpenSBLI.Filters.C53_in_place_frame' depends on axioms: [propext, Classical.choice, Quot.sound]
'OpenSBLI.Weno.C54_weno_sensor_bounds' depends on axioms: [propext, Classical.choice, Quot.sound]
'OpenSBLI.Filters.C54_defined_iff' depends on axioms: [propext, Classical.choice, Quot.sound]
'OpenSBLI.Filters.C54_range' depends on axioms: [propext, Classical.choice, Quot.sound]
'OpenSBLI.Filters.C54_compression_expansion' depends on axioms: [propext, Classical.choice, Quot.sound]
'OpenSBLI.Filters.C54_rotation' depends on axioms: [propext, Classical.choice, Quot.sound]
'OpenSBLI.Filters.C54_mach_control' depends on axioms: [propext, Classical.choice, Quot.sound]
'OpenSBLI.Filters.C54_mach_number' depends on axioms: [propext, Classical.choice, Quot.sound]
'OpenSBLI.Filters.C54_largest_nearby' depends on axioms: [propext, Classical.choice, Quot.sound]
'OpenSBLI.Filters.C54_wall_zone' depends on axioms: [propext, Quot.sound]
'OpenSBLI.Filters.C54_application' depends on axioms: [propext, Classical.choice, Quot.sound]
'OpenSBLI.Metric.C55_inverse' depends on axioms: [propext, Classical.choice, Quot.sound]
'OpenSBLI.Metric.C55_first_derivative' depends on axioms: [propext, Classical.choice, Quot.sound]
'OpenSBLI.Metric.C55_second_derivative' depends on axioms: [propext, Classical.choice, Quot.sound]
'OpenSBLI.Metric.C55_interface_signs' depends on axioms: [propext, Classical.choice, Quot.sound]
'OpenSBLI.Metric.C55_nested_order' depends on axioms: [propext]
'OpenSBLI.Metric.C55_equation_partial' depends on axioms: [propext, Quot.sound]
'OpenSBLI.Util.C56_rankine_hugoniot' depends on axioms: [propext, Classical.choice, Quot.sound]
'OpenSBLI.Util.C56_primitive' depends on axioms: [propext, Classical.choice, Quot.sound]
'OpenSBLI.Util.C56_compression_iff' depends on axioms: [propext, Classical.choice, Quot.sound]
'OpenSBLI.Util.C56_post_mach' depends on axioms: [propext, Classical.choice, Quot.sound]
'OpenSBLI.Util.C56_temperature' depends on axioms: [propext, Classical.choice, Quot.sound]
'OpenSBLI.Util.C56_check_units' depends on axioms: [propext, Classical.choice, Quot.sound]
'OpenSBLI.Util.C56_check_partial' depends on axioms: [propext, Classical.choice, Quot.sound]
'OpenSBLI.Util.C56_velocity_not_scaled' depends on axioms: [propext, Classical.choice, Quot.sound]
'OpenSBLI.Util.C57_second_derivatives' depends on axioms: [propext, Classical.choice, Quot.sound]
'OpenSBLI.Util.C57_bisection' depends on axioms: [propext, Classical.choice, Quot.sound]
'OpenSBLI.Util.C57_interpolant' depends on axioms: [propext, Classical.choice, Quot.sound]
'OpenSBLI.Util.C57_duplicate_knots' depends on axioms: [propext, Classical.choice, Quot.sound]
'OpenSBLI.Hdf5.C58_interior_partial' depends on axioms: [propext, Classical.choice, Quot.sound]
'OpenSBLI.Hdf5.C58_one_dimension' depends on axioms: [propext, Classical.choice, Quot.sound]
'OpenSBLI.Hdf5.C58_metadata_two' depends on axioms: [propext]
'OpenSBLI.Hdf5.C58_round_trip_two' depends on axioms: [propext, Classical.choice, Quot.sound]
'OpenSBLI.Hdf5.C58_three_rejected' depends on axioms: [propext]
'OpenSBLI.Hdf5.C58_three_truncated' depends on axioms: [propext, Classical.choice, Quot.sound]
'OpenSBLI.Hdf5.C58_one_metadata' depends on axioms: [propext, Classical.choice, Quot.sound]
'OpenSBLI.Setup.C59_accepted_iff' depends on axioms: [propext, Classical.choice, Quot.sound]
'OpenSBLI.Setup.C59_assigned_pairwise' depends on axioms: [propext, Classical.choice, Quot.sound]
'OpenSBLI.Setup.C59_applied_in_order' depends on axioms: [propext, Classical.choice, Quot.sound]
'OpenSBLI.Setup.C59_every_face_partial' depends on axioms: [propext, Classical.choice, Quot.sound]
'OpenSBLI.Setup.C59_order_not_checked' depends on axioms: [propext, Classical.choice, Quot.sound]
'OpenSBLI.Setup.C60_sorted' depends on axioms: [propext, Quot.sound]
'OpenSBLI.Setup.C60_constituent_relations_first' depends on axioms: [propext, Classical.choice, Quot.sound]
'OpenSBLI.Setup.C60_constituent_order_reversed' depends on axioms: [propext, Classical.choice, Quot.sound]
'OpenSBLI.Bc.C61_increment_single_location' depends on axioms: [propext, Classical.choice, Quot.sound]
'OpenSBLI.Bc.C61_increment_captures' depends on axioms: [propext, Classical.choice, Quot.sound]
'OpenSBLI.Mem.C62_central_partial' depends on axioms: [propext, Classical.choice, Quot.sound]
'OpenSBLI.Mem.C62_pointwise' depends on axioms: [propext, Classical.choice, Quot.sound]
'OpenSBLI.Mem.C62_reconstruction' depends on axioms: [propext, Classical.choice, Quot.sound]
'OpenSBLI.Mem.C62_reconstruction_tight' depends on axioms: [propext, Classical.choice, Quot.sound]
'OpenSBLI.Mem.C62_same_direction' depends on axioms: [propext, Classical.choice, Quot.sound]
'OpenSBLI.Mem.C63_inner_covers_outer_partial' depends on axioms: [propext, Classical.choice, Quot.sound]
'OpenSBLI.Mem.C63_sum_of_inner_derivatives' depends on axioms: [propext, Classical.choice, Quot.sound]
'OpenSBLI.Mem.C63_three_levels' depends on axioms: [propext, Classical.choice, Quot.sound]
'OpenSBLI.Bc.C64_wall_momentum' depends on axioms: [propext, Classical.choice, Quot.sound]
'OpenSBLI.Bc.C64_wall_temperature_partial' depends on axioms: [propext, Classical.choice, Quot.sound]
'OpenSBLI.Bc.C64_forced_wall_too_cold' depends on axioms: [propext, Classical.choice, Quot.sound]
'OpenSBLI.Bc.C64_halo' depends on axioms: [propext, Classical.choice, Quot.sound]
'OpenSBLI.Bc.C64_frame' depends on axioms: [propext, Classical.choice, Quot.sound]
'OpenSBLI.Bc.C64_halo_not_about_wall_velocity' depends on axioms: [propext, Classical.choice, Quot.sound]
'OpenSBLI.Ranges.C65_dirichlet_points' depends on axioms: [propext, Classical.choice, Quot.sound]
'OpenSBLI.Ranges.C65_dirichlet_fills_halos' depends on axioms: [propext, Classical.choice, Quot.sound]
'OpenSBLI.Ranges.C65_dirichlet_values' depends on axioms: [propext, Classical.choice, Quot.sound]
'OpenSBLI.Ranges.C65_split_points' depends on axioms: [propext, Classical.choice, Quot.sound]
'OpenSBLI.Ranges.C65_split_partition' depends on axioms: [propext, Classical.choice, Quot.sound]
'OpenSBLI.Ranges.C65_split_names_distinct' depends on axioms: [propext, Classical.choice, Quot.sound]
'OpenSBLI.Ranges.C65_split_blocks_share_range' depends on axioms: [propext, Classical.choice, Quot.sound]
'OpenSBLI.Iw2.C66_wall_tangential' depends on axioms: [propext, Classical.choice, Quot.sound]
'OpenSBLI.Iw2.C66_wall_pressure' depends on axioms: [propext, Classical.choice, Quot.sound]
'OpenSBLI.Iw2.C66_halo_linear' depends on axioms: [propext, Classical.choice, Quot.sound]
'OpenSBLI.Iw2.C66_uniform_flow_preserved' depends on axioms: [propext, Classical.choice, Quot.sound]
'OpenSBLI.Iw2.C66_foot_of_normal_partial' depends on axioms: [propext, Classical.choice, Quot.sound]
'OpenSBLI.Iw2.C66_falling_wall_wrong' depends on axioms: [propext, Classical.choice, Quot.sound]
'OpenSBLI.Iw2.C66_horizontal_lines_wrong' depends on axioms: [propext, Classical.choice, Quot.sound]
'OpenSBLI.Phys.C67_pressure' depends on axioms: [propext, Classical.choice, Quot.sound]
'OpenSBLI.Phys.C67_temperature' depends on axioms: [propext, Classical.choice, Quot.sound]
'OpenSBLI.Phys.C67_equation_of_state' depends on axioms: [propext, Classical.choice, Quot.sound]
'OpenSBLI.Phys.C67_velocity_momentum' depends on axioms: [propext, Classical.choice, Quot.sound]
'OpenSBLI.Phys.C67_sound_speed_partial' depends on axioms: [propext, Classical.choice, Quot.sound]
'OpenSBLI.Phys.C67_sound_speed_wrong' depends on axioms: [propext, Classical.choice, Quot.sound]
'OpenSBLI.Phys.C67_vector_names' depends on axioms: [propext, Quot.sound]
'OpenSBLI.Phys.C67_viscosity_is_momentum' depends on axioms: [propext, Classical.choice, Quot.sound]
'OpenSBLI.Mon.C68_probe_value' depends on axioms: [propext, Classical.choice, Quot.sound]
'OpenSBLI.Mon.C68_printed_row' depends on axioms: [propext, Classical.choice, Quot.sound]
'OpenSBLI.Mon.C68_placeholders_match' depends on axioms: [propext, Classical.choice, Quot.sound]
'OpenSBLI.Mon.C68_printed_expressions' depends on axioms: [propext, Classical.choice, Quot.sound]
'OpenSBLI.Mon.C68_mismatch_rejected' depends on axioms: [propext]
'OpenSBLI.Mon.C68_names_unique' depends on axioms: [propext, Classical.choice, Quot.sound]
'OpenSBLI.Mon.C68_header_columns_partial' depends on axioms: [propext, Classical.choice, Quot.sound]
'OpenSBLI.Mon.C68_header_misaligned' depends on axioms: [propext, Classical.choice, Quot.sound]
'OpenSBLI.Mon.C68_one_dimensional_tuple' depends on axioms: [propext]
'OpenSBLI.Mon.C68_probe_location' depends on axioms: [propext]
'OpenSBLI.Mon.C68_output_to_screen_fails' depends on axioms: [propext, Classical.choice, Quot.sound]
'OpenSBLI.Store.C69_kernels' depends on axioms: [propext, Classical.choice, Quot.sound]
'OpenSBLI.Store.C69_residual_partial' depends on axioms: [propext, Classical.choice, Quot.sound]
'OpenSBLI.Store.C69_storing_irrelevant' depends on axioms: [propext, Classical.choice, Quot.sound]
'OpenSBLI.Store.C69_no_derivative_left' depends on axioms: [propext, Classical.choice, Quot.sound]
'OpenSBLI.Store.C69_all_stored' depends on axioms: [propext, Classical.choice, Quot.sound]
'OpenSBLI.Store.C69_advection_lost' depends on axioms: [propext, Classical.choice, Quot.sound]
'OpenSBLI.Store.C69_viscous_dropped' depends on axioms: [propext, Classical.choice, Quot.sound]
'OpenSBLI.Store.C69_unstored_inner_left' depends on axioms: [propext, Classical.choice, Quot.sound]
'OpenSBLI.Store.C69_second_use_fails' does not depend on any axioms
'OpenSBLI.Store.C69_constituents' depends on axioms: [propext, Quot.sound]
'OpenSBLI.User.C70_exact' depends on axioms: [propext, Classical.choice, Quot.sound]
'OpenSBLI.User.C70_meaning_partial' depends on axioms: [propext, Classical.choice, Quot.sound]
'OpenSBLI.User.C70_plain_dropped' depends on axioms: [propext, Classical.choice, Quot.sound]
'OpenSBLI.User.C70_halos_ignored' depends on axioms: [propext, Classical.choice, Quot.sound]
'OpenSBLI.User.C70_nested_stale' depends on axioms: [propext, Classical.choice, Quot.sound]
'OpenSBLI.User.C70_points' depends on axioms: [propext, Classical.choice, Quot.sound]
'OpenSBLI.User.C71_meaning_partial' depends on axioms: [propext, Classical.choice, Quot.sound]
'OpenSBLI.User.C71_frozen_exact' depends on axioms: [propext, Classical.choice, Quot.sound]
'OpenSBLI.User.C71_frozen' depends on axioms: [propext, Classical.choice, Quot.sound]
'OpenSBLI.User.C71_no_derivative_nothing' depends on axioms: [propext, Classical.choice, Quot.sound]
'OpenSBLI.User.C71_unevaluated_relation' depends on axioms: [propext, Classical.choice, Quot.sound]
'OpenSBLI.User.C71_relations_hold_partial' depends on axioms: [propext, Classical.choice, Quot.sound]
'OpenSBLI.User.C71_relation_order' depends on axioms: [propext, Classical.choice, Quot.sound]
'OpenSBLI.User.C72_points' depends on axioms: [propext, Classical.choice, Quot.sound]
'OpenSBLI.User.C72_memory_partial' depends on axioms: [propext, Classical.choice, Quot.sound]
'OpenSBLI.User.C72_values' depends on axioms: [propext, Classical.choice, Quot.sound]
'OpenSBLI.User.C72_outside_memory' depends on axioms: [propext, Classical.choice, Quot.sound]
'OpenSBLI.Alg.C73_run' depends on axioms: [propext, Classical.choice, Quot.sound]
'OpenSBLI.Alg.C73_generation_succeeds_iff' depends on axioms: [propext, Classical.choice, Quot.sound]
'OpenSBLI.Alg.C73_metrics_after_equations' depends on axioms: [propext, Classical.choice, Quot.sound]
'OpenSBLI.MultiBlock.C73_interfaces_partial' depends on axioms: [propext, Classical.choice, Quot.sound]
'OpenSBLI.MultiBlock.C73_corner_stale' depends on axioms: [propext, Classical.choice, Quot.sound]
'OpenSBLI.MultiBlock.C73_corner_wrong' depends on axioms: [propext, Classical.choice, Quot.sound]
'OpenSBLI.MultiBlock.C73_corner_fresh_after_two' depends on axioms: [propext, Classical.choice, Quot.sound]
'OpenSBLI.Alg.C73_periodic_output' depends on axioms: [propext, Classical.choice, Quot.sound]
'OpenSBLI.Alg.C73_saved_together' depends on axioms: [propext, Classical.choice, Quot.sound]
'OpenSBLI.Alg.C73_declarations' depends on axioms: [propext, Classical.choice, Quot.sound]
'OpenSBLI.Katzer.C74_similarity_equations' depends on axioms: [propext, Classical.choice, Quot.sound]
'OpenSBLI.Katzer.C74_profile_partial' depends on axioms: [propext, Classical.choice, Quot.sound]
'OpenSBLI.Katzer.C74_secant_step' depends on axioms: [propext, Classical.choice, Quot.sound]
'OpenSBLI.Katzer.C74_affine_exact' depends on axioms: [propext, Classical.choice, Quot.sound]
'OpenSBLI.Katzer.C74_unconverged_keeps_trial' depends on axioms: [propext, Classical.choice, Quot.sound]
'OpenSBLI.Katzer.C74_isothermal_increment_zero' depends on axioms: [propext, Classical.choice, Quot.sound]
'OpenSBLI.Katzer.C74_wall_distance' depends on axioms: [propext, Classical.choice, Quot.sound]
'OpenSBLI.Katzer.C74_continuity' depends on axioms: [propext, Classical.choice, Quot.sound]
'OpenSBLI.Katzer.C74_edge' depends on axioms: [propext, Classical.choice, Quot.sound]
'OpenSBLI.Katzer.C74_one_wall' depends on axioms: [propext, Classical.choice, Quot.sound]
'OpenSBLI.Katzer.C74_side_walls_pressure' depends on axioms: [propext, Classical.choice, Quot.sound]
'OpenSBLI.Katzer.C74_side_walls_symmetric' depends on axioms: [propext, Classical.choice, Quot.sound]
'OpenSBLI.Katzer.C74_side_walls_free_stream' depends on axioms: [propext, Classical.choice, Quot.sound]
'OpenSBLI.Katzer.C74_requests_refused' depends on axioms: [propext, Classical.choice, Quot.sound]
'OpenSBLI.Katzer.C74_second_direction_ignored' depends on axioms: [propext, Classical.choice, Quot.sound]
'OpenSBLI.CCode.C75_kernel_text_partial' depends on axioms: [propext, Classical.choice, Quot.sound]
'OpenSBLI.CCode.C75_generated_constants' depends on axioms: [propext, Classical.choice, Quot.sound]
'OpenSBLI.CCode.C75_program_partial' depends on axioms: [propext, Classical.choice, Quot.sound]
'OpenSBLI.CCode.C75_definition_text' depends on axioms: [propext, Classical.choice, Quot.sound]
'OpenSBLI.CCode.C75_equality_condition_assigns' depends on axioms: [propext, Classical.choice, Quot.sound]
'OpenSBLI.CCode.C75_equality_condition_of_index' depends on axioms: [propext, Classical.choice, Quot.sound]
'OpenSBLI.CCode.C75_index_quotient_truncated' depends on axioms: [propext, Classical.choice, Quot.sound]
'OpenSBLI.CCode.C75_modulus_sign' depends on axioms: [propext, Classical.choice, Quot.sound]
'OpenSBLI.CCode.C75_modulus_of_global' depends on axioms: [propext, Classical.choice, Quot.sound]
'OpenSBLI.CCode.C75_hidden_constant' depends on axioms: [propext, Classical.choice, Quot.sound]
'OpenSBLI.CCode.C75_varying_exponent' depends on axioms: [propext, Classical.choice, Quot.sound]
'OpenSBLI.CCode.C75_equality_condition_wrong' depends on axioms: [propext, Classical.choice, Quot.sound]
'OpenSBLI.WenoFilter.C76_fluxes_are_euler' depends on axioms: [propext, Classical.choice, Quot.sound]
'OpenSBLI.WenoFilter.C76_filter_line' depends on axioms: [propext, Classical.choice, Quot.sound]
'OpenSBLI.WenoFilter.C76_accepted_iff' depends on axioms: [propext, Classical.choice, Quot.sound]
'OpenSBLI.WenoFilter.C76_step_constant' depends on axioms: [propext, Classical.choice, Quot.sound]
'OpenSBLI.WenoFilter.C76_step_ducros' depends on axioms: [propext, Classical.choice, Quot.sound]
'OpenSBLI.WenoFilter.C76_step_ducros_partial' depends on axioms: [propext, Classical.choice, Quot.sound]
'OpenSBLI.WenoFilter.C76_central_overwrites_fluxes' depends on axioms: [propext, Classical.choice, Quot.sound]
'OpenSBLI.WenoFilter.C76_two_dimensional_defect' depends on axioms: [propext, Classical.choice, Quot.sound]
'OpenSBLI.WenoFilter.C76_uniform_flow_unchanged' depends on axioms: [propext, Classical.choice, Quot.sound]
'OpenSBLI.WenoFilter.C76_sensor_weight' depends on axioms: [propext, Classical.choice, Quot.sound]
'OpenSBLI.WenoFilter.C76_conserves_partial' depends on axioms: [propext, Classical.choice, Quot.sound]
'OpenSBLI.WenoFilter.C76_sensor_reads_inside' depends on axioms: [propext, Classical.choice, Quot.sound]
'OpenSBLI.WenoFilter.C76_sensor_reads_stale' depends on axioms: [propext, Classical.choice, Quot.sound]
'OpenSBLI.WenoFilter.C76_wall_zone' depends on axioms: [propext, Quot.sound]
'OpenSBLI.WenoFilter.C76_eigensystem_metrics' depends on axioms: [propext]
'OpenSBLI.WenoFilter.C76_orders' depends on axioms: [propext, Classical.choice, Quot.sound]
'OpenSBLI.WenoFilter.C76_central_is_mean_of_ideal' depends on axioms: [propext, Classical.choice, Quot.sound]
'OpenSBLI.WenoFilter.C76_subtracts_central_scheme' depends on axioms: [propext, Classical.choice, Quot.sound]
'OpenSBLI.WenoFilter.C76_ideal_difference' depends on axioms: [propext, Classical.choice, Quot.sound]
'OpenSBLI.WenoFilter.C76_filter_flux' depends on axioms: [propext, Classical.choice, Quot.sound]
'OpenSBLI.WenoFilter.C76_no_flux_on_linear_waves' depends on axioms: [propext, Classical.choice, Quot.sound]
'OpenSBLI.WenoFilter.C76_flag_removes_base_scheme' depends on axioms: [propext, Classical.choice, Quot.sound]
'OpenSBLI.Sim.C77_conservation_rk' depends on axioms: [propext, Classical.choice, Quot.sound]
'OpenSBLI.Sim.C77_conservation_ls' depends on axioms: [propext, Classical.choice, Quot.sound]
'OpenSBLI.Sim.C77_uniform_flow' depends on axioms: [propext, Classical.choice, Quot.sound]
'OpenSBLI.Sim.C77_stale_constituent' depends on axioms: [propext, Classical.choice, Quot.sound]
'OpenSBLI.Sim.C77_grid_values_ls' depends on axioms: [propext, Classical.choice, Quot.sound]
'OpenSBLI.Sim.C77_grid_values' depends on axioms: [propext, Classical.choice, Quot.sound]
'OpenSBLI.Sim.C77_datasets_exist' depends on axioms: [propext, Classical.choice, Quot.sound]
'OpenSBLI.Sim.C77_residual_partial' depends on axioms: [propext, Classical.choice, Quot.sound]
'OpenSBLI.Sim.C77_program_rk_partial' depends on axioms: [propext, Classical.choice, Quot.sound]
'OpenSBLI.Sim.C77_program_ls_partial' depends on axioms: [propext, Classical.choice, Quot.sound]
'OpenSBLI.Sim.C78_simple_average_reads' depends on axioms: [propext, Classical.choice, Quot.sound]
'OpenSBLI.Sim.C78_roe_average_reads' depends on axioms: [propext, Classical.choice, Quot.sound]
'OpenSBLI.Sim.C78_roe_average' depends on axioms: [propext, Classical.choice, Quot.sound]
'OpenSBLI.Sim.C78_simple_average' depends on axioms: [propext, Classical.choice, Quot.sound]
'OpenSBLI.Sim.C78_first_direction' depends on axioms: [propext, Classical.choice, Quot.sound]
'OpenSBLI.Sim.C78_conservation_rk' depends on axioms: [propext, Classical.choice, Quot.sound]
'OpenSBLI.Sim.C78_conservation_ls' depends on axioms: [propext, Classical.choice, Quot.sound]
'OpenSBLI.Sim.C78_uniform_flow' depends on axioms: [propext, Classical.choice, Quot.sound]
'OpenSBLI.Sim.C78_halo_independent' depends on axioms: [propext, Classical.choice, Quot.sound]
'OpenSBLI.Sim.C78_no_derivatives' depends on axioms: [propext, Classical.choice, Quot.sound]
'OpenSBLI.Sim.C78_counted_twice' depends on axioms: [propext, Classical.choice, Quot.sound]
'OpenSBLI.Sim.C78_datasets_exist' depends on axioms: [propext, Classical.choice, Quot.sound]
'OpenSBLI.Sim.C78_residual_partial' depends on axioms: [propext, Classical.choice, Quot.sound]
'OpenSBLI.Sim.C78_program_rk_partial' depends on axioms: [propext, Classical.choice, Quot.sound]
'OpenSBLI.Sim.C78_program_ls_partial' depends on axioms: [propext, Classical.choice, Quot.sound]
'OpenSBLI.Sim.C79_free_stream_central_rk' depends on axioms: [propext, Classical.choice, Quot.sound]
'OpenSBLI.Sim.C79_free_stream_central_ls' depends on axioms: [propext, Classical.choice, Quot.sound]
'OpenSBLI.Sim.C79_free_stream_shock_rk' depends on axioms: [propext, Classical.choice, Quot.sound]
'OpenSBLI.Sim.C79_free_stream_shock_ls' depends on axioms: [propext, Classical.choice, Quot.sound]
'OpenSBLI.Sim.C79_weighted_conservation_central_rk' depends on axioms: [propext, Classical.choice, Quot.sound]
'OpenSBLI.Sim.C79_weighted_conservation_central_ls' depends on axioms: [propext, Classical.choice, Quot.sound]
'OpenSBLI.Sim.C79_weighted_conservation_shock_rk' depends on axioms: [propext, Classical.choice, Quot.sound]
'OpenSBLI.Sim.C79_weighted_conservation_shock_ls' depends on axioms: [propext, Classical.choice, Quot.sound]
'OpenSBLI.Metric.C80_metric_terms_partial' depends on axioms: [propext, Classical.choice, Quot.sound]
'OpenSBLI.Metric.C80_opposite_sides_wrong' depends on axioms: [propext, Classical.choice, Quot.sound]
'OpenSBLI.Recon.C81_euler_regular' depends on axioms: [propext, Classical.choice, Quot.sound]
'OpenSBLI.Recon.C81_euler' depends on axioms: [propext, Classical.choice, Quot.sound]
'OpenSBLI.Recon.C81_kernel' depends on axioms: [propext, Classical.choice, Quot.sound]
'OpenSBLI.Recon.C81_interface' depends on axioms: [propext, Classical.choice, Quot.sound]
'OpenSBLI.Recon.C81_loop' depends on axioms: [propext, Classical.choice, Quot.sound]
'OpenSBLI.Recon.C81_points_weno' depends on axioms: [propext, Classical.choice, Quot.sound]
'OpenSBLI.Recon.C81_points_teno' depends on axioms: [propext, Classical.choice, Quot.sound]
'OpenSBLI.Recon.C81_names' depends on axioms: [propext, Classical.choice, Quot.sound]
'OpenSBLI.Recon.C81_names_collide' depends on axioms: [propext, Classical.choice, Quot.sound]
'OpenSBLI.Recon.C81_unset_average' depends on axioms: [propext, Classical.choice, Quot.sound]
'OpenSBLI.Parse.C82_der' depends on axioms: [propext, Classical.choice, Quot.sound]
'OpenSBLI.Parse.C82_conservative' depends on axioms: [propext, Classical.choice, Quot.sound]
'OpenSBLI.Parse.C82_expand_partial' depends on axioms: [propext, Classical.choice, Quot.sound]
'OpenSBLI.Parse.C82_substitutions_partial' depends on axioms: [propext, Classical.choice, Quot.sound]
'OpenSBLI.Parse.C82_scheme' depends on axioms: [propext]
'OpenSBLI.Parse.C82_rebuilt' depends on axioms: [propext]
'OpenSBLI.Parse.C82_substitution_scheme' depends on axioms: [propext]
'OpenSBLI.Parse.C82_inner_scheme' depends on axioms: [propext, Quot.sound]
'OpenSBLI.Parse.C82_inner_scheme_conservative' depends on axioms: [propext, Classical.choice, Quot.sound]
'OpenSBLI.Parse.C82_unknown_scheme' depends on axioms: [propext, Classical.choice, Quot.sound]
'OpenSBLI.Parse.C82_three_conservative' depends on axioms: [propext, Quot.sound]
'OpenSBLI.Parse.C82_der_in_conservative' depends on axioms: [propext, Quot.sound]
'OpenSBLI.Parse.C82_three_der' depends on axioms: [propext, Quot.sound]
'OpenSBLI.Parse.C82_skew_partial' depends on axioms: [propext, Classical.choice, Quot.sound]
'OpenSBLI.Parse.C82_skew_symbol' depends on axioms: [propext, Classical.choice, Quot.sound]
'OpenSBLI.Parse.C82_skew_function' depends on axioms: [propext, Classical.choice, Quot.sound]
'OpenSBLI.Parse.C82_coordinates' depends on axioms: [propext, Quot.sound]
'OpenSBLI.Parse.C82_constants_partial' depends on axioms: [propext, Classical.choice, Quot.sound]
'OpenSBLI.Parse.C82_data_partial' depends on axioms: [propext, Classical.choice, Quot.sound]
'OpenSBLI.Parse.C82_coordinate_names' depends on axioms: [propext, Classical.choice, Quot.sound]
'OpenSBLI.Parse.C82_names_coordinate' depends on axioms: [propext, Classical.choice, Quot.sound]
'OpenSBLI.Parse.C82_names_library' depends on axioms: [propext, Classical.choice, Quot.sound]
'OpenSBLI.Parse.C82_inner_scheme_example' depends on axioms: [propext, Classical.choice, Quot.sound]
'OpenSBLI.Parse.C82_skew_sum' depends on axioms: [propext, Classical.choice, Quot.sound]
'OpenSBLI.Place.C83_placed_partial' depends on axioms: [propext, Classical.choice, Quot.sound]
'OpenSBLI.Place.C83_constants_partial' depends on axioms: [propext, Quot.sound]
'OpenSBLI.Place.C83_again' depends on axioms: [propext, Classical.choice, Quot.sound]
'OpenSBLI.Place.C83_blocks' depends on axioms: [propext]
'OpenSBLI.Place.C83_nested_lost' depends on axioms: [propext, Quot.sound]
'OpenSBLI.Place.C83_tuple_lost' depends on axioms: [propext, Quot.sound]
'OpenSBLI.Place.C83_nested_empty' depends on axioms: [propext, Quot.sound]
'OpenSBLI.Place.C83_expression' depends on axioms: [propext, Quot.sound]
'OpenSBLI.Prog.C84_scoped_partial' depends on axioms: [propext, Classical.choice, Quot.sound]
'OpenSBLI.Prog.C84_algorithm_partial' depends on axioms: [propext, Classical.choice, Quot.sound]
'OpenSBLI.Prog.C84_unregistered' depends on axioms: [propext, Classical.choice, Quot.sound]
'OpenSBLI.Prog.C84_value' depends on axioms: [propext, Classical.choice, Quot.sound]
'OpenSBLI.Prog.C84_library' depends on axioms: [propext, Classical.choice, Quot.sound]
'OpenSBLI.Prog.C84_hidden' depends on axioms: [propext, Classical.choice, Quot.sound]
'OpenSBLI.Prog.C84_local' depends on axioms: [propext, Classical.choice, Quot.sound]
'OpenSBLI.Prog.C84_placed_twice' depends on axioms: [propext, Classical.choice, Quot.sound]
'OpenSBLI.Prog.C84_two_outputs' depends on axioms: [propext, Classical.choice, Quot.sound]
'OpenSBLI.Prog.C84_two_outputs_requested' depends on axioms: [propext, Classical.choice, Quot.sound]
'OpenSBLI.Prog.C84_monitored' depends on axioms: [propext, Classical.choice, Quot.sound]
'OpenSBLI.Prog.C84_stage_outside' depends on axioms: [propext, Classical.choice, Quot.sound]
'OpenSBLI.Prog.C84_inverse' depends on axioms: [propext, Classical.choice, Quot.sound]
'OpenSBLI.Prog.C84_block_number' depends on axioms: [propext, Classical.choice, Quot.sound]
'OpenSBLI.Prog.C84_empty_output' depends on axioms: [propext, Classical.choice, Quot.sound]
'OpenSBLI.Sim.C85_closures_local' depends on axioms: [propext, Classical.choice, Quot.sound]
'OpenSBLI.Sim.C85_closures_program' depends on axioms: [propext, Classical.choice, Quot.sound]
'OpenSBLI.Sim.C85_closure_formulas' depends on axioms: [propext, Classical.choice, Quot.sound]
'OpenSBLI.Sim.C85_closure_exact_partial' depends on axioms: [propext, Classical.choice, Quot.sound]
'OpenSBLI.Sim.C85_reduced_order_wrong' depends on axioms: [propext, Classical.choice, Quot.sound]
'OpenSBLI.Sim.C85_closure_rounding' depends on axioms: [propext, Classical.choice, Quot.sound]
'OpenSBLI.Sim.C85_no_halo' depends on axioms: [propext, Classical.choice, Quot.sound]
'OpenSBLI.Sim.C85_name_clash' depends on axioms: [propext, Classical.choice, Quot.sound]
'OpenSBLI.Sim.C85_text_run_partial' depends on axioms: [propext, Classical.choice, Quot.sound]
'OpenSBLI.Sim.C85_constants' depends on axioms: [propext, Classical.choice, Quot.sound]
'OpenSBLI.Sim.C85_rk_partial' depends on axioms: [propext, Classical.choice, Quot.sound]
'OpenSBLI.Sim.C85_ls_partial' depends on axioms: [propext, Classical.choice, Quot.sound]
'OpenSBLI.Sim.C85_conservation_rk_partial' depends on axioms: [propext, Classical.choice, Quot.sound]
'OpenSBLI.Sim.C85_conservation_ls_partial' depends on axioms: [propext, Classical.choice, Quot.sound]
'OpenSBLI.Sim.C86_reconstruction' depends on axioms: [propext, Classical.choice, Quot.sound]
'OpenSBLI.Sim.C86_gamma' depends on axioms: [propext, Classical.choice, Quot.sound]
'OpenSBLI.Sim.C86_text_run_partial' depends on axioms: [propext, Classical.choice, Quot.sound]
'OpenSBLI.Sim.C86_rk_partial' depends on axioms: [propext, Classical.choice, Quot.sound]
'OpenSBLI.Sim.C86_ls_partial' depends on axioms: [propext, Classical.choice, Quot.sound]
'OpenSBLI.Sim.C86_conservation_rk_partial' depends on axioms: [propext, Classical.choice, Quot.sound]
'OpenSBLI.Sim.C86_conservation_ls_partial' depends on axioms: [propext, Classical.choice, Quot.sound]
'OpenSBLI.Order.C87_central' depends on axioms: [propext, Classical.choice, Quot.sound]
'OpenSBLI.Order.C87_closure_partial' depends on axioms: [propext, Classical.choice, Quot.sound]
'OpenSBLI.Order.C87_expressions' depends on axioms: [propext, Classical.choice, Quot.sound]
'OpenSBLI.Order.C87_right_hand_sides' depends on axioms: [propext, Classical.choice, Quot.sound]
'OpenSBLI.Order.C88_stability' depends on axioms: [propext, Classical.choice, Quot.sound]
'OpenSBLI.Order.C88_stability_ls' depends on axioms: [propext, Classical.choice, Quot.sound]
'OpenSBLI.Order.C88_convergence' depends on axioms: [propext, Classical.choice, Quot.sound]
'OpenSBLI.Order.C88_convergence_ls' depends on axioms: [propext, Classical.choice, Quot.sound]
'OpenSBLI.Order.C88_text_convergence_partial' depends on axioms: [propext, Classical.choice, Quot.sound]
'OpenSBLI.Order.C88_text_convergence_ls_partial' depends on axioms: [propext, Classical.choice, Quot.sound]
'OpenSBLI.Order.C88_stability_ls4' depends on axioms: [propext, Classical.choice, Quot.sound]
'OpenSBLI.Order.C88_convergence_ls4' depends on axioms: [propext, Classical.choice, Quot.sound]
'OpenSBLI.Order.C88_text_convergence_ls4_partial' depends on axioms: [propext, Classical.choice, Quot.sound]
'OpenSBLI.Sim.C88_wave' depends on axioms: [propext, Classical.choice, Quot.sound]
'OpenSBLI.Sim.C88_wave_returns' depends on axioms: [propext, Classical.choice, Quot.sound]
'OpenSBLI.Sim.C88_wave_ls' depends on axioms: [propext, Classical.choice, Quot.sound]
'OpenSBLI.Sim.C88_wave_ls4' depends on axioms: [propext, Classical.choice, Quot.sound]
'OpenSBLI.Sim.C89_flow' depends on axioms: [propext, Classical.choice, Quot.sound]
'OpenSBLI.TimeOrder.C89_order_four' depends on axioms: [propext, Classical.choice, Quot.sound]
'OpenSBLI.TimeOrder.C89_order_four_lipschitz' depends on axioms: [propext, Classical.choice, Quot.sound]
'OpenSBLI.TimeOrder.C89_ls4_method' depends on axioms: [propext, Classical.choice, Quot.sound]
'OpenSBLI.TimeOrder.C89_low_storage4' depends on axioms: [propext, Classical.choice, Quot.sound]
'OpenSBLI.Sim.C89_smooth4' depends on axioms: [propext, Classical.choice, Quot.sound]
'OpenSBLI.Sim.C89_simulation_ls4' depends on axioms: [propext, Classical.choice, Quot.sound]
'OpenSBLI.Sim.C89_text_ls4_partial' depends on axioms: [propext, Classical.choice, Quot.sound]
'OpenSBLI.TimeOrder.C89_default' depends on axioms: [propext, Classical.choice, Quot.sound]
'OpenSBLI.TimeOrder.C89_low_storage' depends on axioms: [propext, Classical.choice, Quot.sound]
'OpenSBLI.TimeOrder.C89_solutions_exist' depends on axioms: [propext, Classical.choice, Quot.sound]
'OpenSBLI.Sim.C89_simulation' depends on axioms: [propext, Classical.choice, Quot.sound]
'OpenSBLI.Sim.C89_simulation_ls' depends on axioms: [propext, Classical.choice, Quot.sound]
'OpenSBLI.Sim.C89_smooth' depends on axioms: [propext, Classical.choice, Quot.sound]
'OpenSBLI.Sim.C89_text_partial' depends on axioms: [propext, Classical.choice, Quot.sound]
'OpenSBLI.Sim.C89_text_ls_partial' depends on axioms: [propext, Classical.choice, Quot.sound]
'OpenSBLI.Sim.C90_heat' depends on axioms: [propext, Classical.choice, Quot.sound]
'OpenSBLI.Sim.C90_simulation' depends on axioms: [propext, Classical.choice, Quot.sound]
'OpenSBLI.Sim.C90_simulation_ssp' depends on axioms: [propext, Classical.choice, Quot.sound]
'OpenSBLI.Sim.C90_text_partial' depends on axioms: [propext, Classical.choice, Quot.sound]
'OpenSBLI.RK.C90_default' depends on axioms: [propext, Classical.choice, Quot.sound]
'OpenSBLI.RK.C90_monotone' depends on axioms: [propext, Classical.choice, Quot.sound]
'OpenSBLI.RK.C90_ssp' depends on axioms: [propext, Classical.choice, Quot.sound]
'OpenSBLI.RK.C90_default_sharp' depends on axioms: [propext, Classical.choice, Quot.sound]
'OpenSBLI.RK.C90_ssp_limit' depends on axioms: [propext, Classical.choice, Quot.sound]
'OpenSBLI.RK.C90_low_storage_not' depends on axioms: [propext, Classical.choice, Quot.sound]
'OpenSBLI.Bc.C91_text_partial' depends on axioms: [propext, Classical.choice, Quot.sound]
'OpenSBLI.Bc.C91_proper' depends on axioms: [propext, Classical.choice, Quot.sound]
'OpenSBLI.Bc.C91_kernel' depends on axioms: [propext, Classical.choice, Quot.sound]
'OpenSBLI.Bc.C91_program' depends on axioms: [propext, Classical.choice, Quot.sound]
'OpenSBLI.Bc.C91_rk_partial' depends on axioms: [propext, Classical.choice, Quot.sound]
'OpenSBLI.Bc.C91_ls_partial' depends on axioms: [propext, Classical.choice, Quot.sound]
'OpenSBLI.Bc.C91_last' depends on axioms: [propext, Classical.choice, Quot.sound]
'OpenSBLI.Bc.C91_boundary_values_partial' depends on axioms: [propext, Classical.choice, Quot.sound]
'OpenSBLI.Bc.C91_no_slip_partial' depends on axioms: [propext, Classical.choice, Quot.sound]
'OpenSBLI.Bc.C91_wall_temperature_partial' depends on axioms: [propext, Classical.choice, Quot.sound]
'OpenSBLI.Bc.C91_symmetry' depends on axioms: [propext, Classical.choice, Quot.sound]
'OpenSBLI.Bc.C91_symmetry_proper' depends on axioms: [propext, Classical.choice, Quot.sound]
'OpenSBLI.Bc.C91_symmetry_confined' depends on axioms: [propext, Classical.choice, Quot.sound]
'OpenSBLI.Bc.C91_rod' depends on axioms: [propext, Classical.choice, Quot.sound]
'OpenSBLI.Bc.C91_isothermal_confined' depends on axioms: [propext, Classical.choice, Quot.sound]
'OpenSBLI.Bc.C91_wall_names' depends on axioms: [propext, Classical.choice, Quot.sound]
'OpenSBLI.Bc.C91_isothermal_proper_partial' depends on axioms: [propext, Classical.choice, Quot.sound]
'OpenSBLI.Bc.C91_isothermal_partial' depends on axioms: [propext, Classical.choice, Quot.sound]
'OpenSBLI.Bc.C91_plain_proper' depends on axioms: [propext, Classical.choice, Quot.sound]
'OpenSBLI.Bc.C91_plain' depends on axioms: [propext, Classical.choice, Quot.sound]
'OpenSBLI.Bc.C91_zero_gradient' depends on axioms: [propext, Classical.choice, Quot.sound]
'OpenSBLI.Bc.C91_extrapolation' depends on axioms: [propext, Classical.choice, Quot.sound]
'OpenSBLI.Bc.C91_inlet_transfer' depends on axioms: [propext, Classical.choice, Quot.sound]
'OpenSBLI.Bc.C91_adiabatic' depends on axioms: [propext, Classical.choice, Quot.sound]
'OpenSBLI.Bc.C91_pressure_outlet' depends on axioms: [propext, Classical.choice, Quot.sound]
'OpenSBLI.Bc.C91_inlet_pressure' depends on axioms: [propext, Classical.choice, Quot.sound]
'OpenSBLI.Bc.C91_inlet_names' depends on axioms: [propext, Classical.choice, Quot.sound]
'OpenSBLI.Bc.C91_adiabatic_momentum' depends on axioms: [propext, Classical.choice, Quot.sound]
'OpenSBLI.Bc.C91_outlet_pressure_partial' depends on axioms: [propext, Classical.choice, Quot.sound]
'OpenSBLI.Bc.C91_adiabatic_no_slip_partial' depends on axioms: [propext, Classical.choice, Quot.sound]
'OpenSBLI.Bc.C91_wall_and_outlet' depends on axioms: [propext, Classical.choice, Quot.sound]
'OpenSBLI.Bc.C91_shock_rk_partial' depends on axioms: [propext, Classical.choice, Quot.sound]
'OpenSBLI.Bc.C91_shock_ls_partial' depends on axioms: [propext, Classical.choice, Quot.sound]
'OpenSBLI.Bc.C91_tube' depends on axioms: [propext, Classical.choice, Quot.sound]
'OpenSBLI.Note.C92_wave' depends on axioms: [propext, Classical.choice, Quot.sound]
'OpenSBLI.Note.C92_tube' depends on axioms: [propext, Classical.choice, Quot.sound]
'OpenSBLI.Note.C92_equations' depends on axioms: [propext, Classical.choice, Quot.sound]
'OpenSBLI.Note.C92_relations' depends on axioms: [propext, Classical.choice, Quot.sound]
'OpenSBLI.Note.C92_rk_partial' depends on axioms: [propext, Classical.choice, Quot.sound]
'OpenSBLI.Note.C92_ls_partial' depends on axioms: [propext, Classical.choice, Quot.sound]
'OpenSBLI.Ein.C92_renaming' depends on axioms: [propext, Classical.choice, Quot.sound]
'OpenSBLI.Note.C92_letters' depends on axioms: [propext, Classical.choice, Quot.sound]
'OpenSBLI.Note.C92_constant_letters_not_free' depends on axioms: [propext, Classical.choice, Quot.sound]
'OpenSBLI.Sim.C93_program_rk_partial' depends on axioms: [propext, Classical.choice, Quot.sound]
'OpenSBLI.Sim.C93_program_ls_partial' depends on axioms: [propext, Classical.choice, Quot.sound]
'OpenSBLI.Sim.C93_chain_rk' depends on axioms: [propext, Classical.choice, Quot.sound]
'OpenSBLI.Sim.C93_chain_ls' depends on axioms: [propext, Classical.choice, Quot.sound]
'OpenSBLI.Sim.C93_wave_chain' depends on axioms: [propext, Classical.choice, Quot.sound]
'OpenSBLI.Sim.C93_mixed_derivatives_differ' depends on axioms: [propext, Classical.choice, Quot.sound]
'OpenSBLI.Sim.C93_mixed_derivatives_not_same' depends on axioms: [propext, Classical.choice, Quot.sound]
'OpenSBLI.Sim.C93_split_rk_partial' depends on axioms: [propext, Classical.choice, Quot.sound]
'OpenSBLI.Sim.C93_split_ls_partial' depends on axioms: [propext, Classical.choice, Quot.sound]
'OpenSBLI.Sim.C93_tiling_rk' depends on axioms: [propext, Classical.choice, Quot.sound]
'OpenSBLI.Sim.C93_tiling_ls' depends on axioms: [propext, Classical.choice, Quot.sound]
'OpenSBLI.Sim.C93_wave' depends on axioms: [propext, Classical.choice, Quot.sound]
'OpenSBLI.Flow.C94_energy_lost' depends on axioms: [propext, Classical.choice, Quot.sound]
'OpenSBLI.Sim.C94_skew_rk' depends on axioms: [propext, Classical.choice, Quot.sound]
'OpenSBLI.Sim.C94_skew_ls' depends on axioms: [propext, Classical.choice, Quot.sound]
'OpenSBLI.Tgv.C94_equations' depends on axioms: [propext, Classical.choice, Quot.sound]
'OpenSBLI.Tgv.C94_relations' depends on axioms: [propext, Classical.choice, Quot.sound]
'OpenSBLI.Tgv.C94_navier_stokes' depends on axioms: [propext, Classical.choice, Quot.sound]
'OpenSBLI.Tgv.C94_taylor_green' depends on axioms: [propext, Classical.choice, Quot.sound]
'OpenSBLI.Source.C95_grammar' depends on axioms: [propext, Classical.choice, Quot.sound]
'OpenSBLI.Source.C95_unambiguous' depends on axioms: [propext, Classical.choice, Quot.sound]
'OpenSBLI.Source.C95_read' depends on axioms: [propext, Classical.choice, Quot.sound]
'OpenSBLI.Source.C95_read_joined' depends on axioms: [propext, Classical.choice, Quot.sound]
'OpenSBLI.Source.C95_spaces' depends on axioms: [propext, Classical.choice, Quot.sound]
'OpenSBLI.Source.C95_whole_number' depends on axioms: [propext, Classical.choice, Quot.sound]
'OpenSBLI.Source.C95_decimal' depends on axioms: [propext, Classical.choice, Quot.sound]
'OpenSBLI.Source.C95_derivative' depends on axioms: [propext, Classical.choice, Quot.sound]
'OpenSBLI.Source.Tgv.C95_equations' depends on axioms: [propext, Classical.choice, Quot.sound]
'OpenSBLI.Source.Tgv.C95_relations' depends on axioms: [propext, Classical.choice, Quot.sound]
'OpenSBLI.Source.C95_wave' depends on axioms: [propext, Classical.choice, Quot.sound]
'OpenSBLI.Source.C95_value' depends on axioms: [propext, Classical.choice, Quot.sound]
'OpenSBLI.Source.C95_side_partial' depends on axioms: [propext, Classical.choice, Quot.sound]
'OpenSBLI.Source.C95_indices' depends on axioms: [propext, Classical.choice, Quot.sound]
'OpenSBLI.Restart.C96_numbered_file' depends on axioms: [propext, Classical.choice, Quot.sound]
'OpenSBLI.Restart.C96_final_file' depends on axioms: [propext, Classical.choice, Quot.sound]
'OpenSBLI.Restart.C96_files_continue' depends on axioms: [propext, Classical.choice, Quot.sound]
'OpenSBLI.Restart.C96_objects_write_later' depends on axioms: [propext, Classical.choice, Quot.sound]
'OpenSBLI.Restart.C96_sources' depends on axioms: [propext, Quot.sound]
'OpenSBLI.Restart.C96_lower_case' depends on axioms: [propext, Classical.choice, Quot.sound]
'OpenSBLI.Restart.C96_unknown_first' depends on axioms: [propext, Quot.sound]
'OpenSBLI.Restart.C96_unknown_later' depends on axioms: [propext, Classical.choice, Quot.sound]
'OpenSBLI.Restart.C96_restart_rk' depends on axioms: [propext, Classical.choice, Quot.sound]
'OpenSBLI.Restart.C96_initial_conditions_win' depends on axioms: [propext, Classical.choice, Quot.sound]
'OpenSBLI.Restart.C96_restart_ls' depends on axioms: [propext, Classical.choice, Quot.sound]
'OpenSBLI.Restart.C96_restart_shock_rk' depends on axioms: [propext, Classical.choice, Quot.sound]
'OpenSBLI.Restart.C96_restart_shock_ls' depends on axioms: [propext, Classical.choice, Quot.sound]
'OpenSBLI.Sim.C97_contact_rk_partial' depends on axioms: [propext, Classical.choice, Quot.sound]
'OpenSBLI.Sim.C97_contact_ls_partial' depends on axioms: [propext, Classical.choice, Quot.sound]
'OpenSBLI.Sim.C97_at_rest' depends on axioms: [propext, Classical.choice, Quot.sound]
'OpenSBLI.Sim.C97_at_rest_ls' depends on axioms: [propext, Classical.choice, Quot.sound]
'OpenSBLI.Sim.C97_gas_at_rest' depends on axioms: [propext, Classical.choice, Quot.sound]
'OpenSBLI.Sim.C97_gas_at_rest_roe' depends on axioms: [propext, Classical.choice, Quot.sound]
'OpenSBLI.Note.C98_right_sides' depends on axioms: [propext, Classical.choice, Quot.sound]
'OpenSBLI.Note.C98_flux_vectors' depends on axioms: [propext, Classical.choice, Quot.sound]
'OpenSBLI.Note.C98_rk_partial' depends on axioms: [propext, Classical.choice, Quot.sound]
'OpenSBLI.Source.Wave.C98_texts' depends on axioms: [propext, Classical.choice, Quot.sound]
'OpenSBLI.Sim.C98_euler_wave_conserves' depends on axioms: [propext, Classical.choice, Quot.sound]
'OpenSBLI.Sim.C98_density_wave_partial' depends on axioms: [propext, Classical.choice, Quot.sound]
'OpenSBLI.Sim.C99_accuracy' depends on axioms: [propext, Classical.choice, Quot.sound]
'OpenSBLI.Sim.C99_three_dimensions' depends on axioms: [propext, Classical.choice, Quot.sound]
'OpenSBLI.Sim.C99_metrics' depends on axioms: [propext, Classical.choice, Quot.sound]
'OpenSBLI.Sim.C99_conservation_rk' depends on axioms: [propext, Classical.choice, Quot.sound]
'OpenSBLI.Sim.C99_conservation_ls' depends on axioms: [propext, Classical.choice, Quot.sound]
'OpenSBLI.Sim.C99_stretched' depends on axioms: [propext, Classical.choice, Quot.sound]
'OpenSBLI.Sim.C99_defect' depends on axioms: [propext, Classical.choice, Quot.sound]
'OpenSBLI.Sim.C99_uniform_flow' depends on axioms: [propext, Classical.choice, Quot.sound]
'OpenSBLI.Sim.C99_uniform_flow_ls' depends on axioms: [propext, Classical.choice, Quot.sound]
'OpenSBLI.Sim.C99_two_dimensions' depends on axioms: [propext, Classical.choice, Quot.sound]
'OpenSBLI.Sim.C100_accuracy' depends on axioms: [propext, Classical.choice, Quot.sound]
'OpenSBLI.Sim.C100_boundary_inconsistent' depends on axioms: [propext, Classical.choice, Quot.sound]
'OpenSBLI.Sim.C100_curvilinear' depends on axioms: [propext, Classical.choice, Quot.sound]
'OpenSBLI.Sim.C100_right_hand_sides' depends on axioms: [propext, Classical.choice, Quot.sound]
'OpenSBLI.Sim.C100_second_metrics' depends on axioms: [propext, Classical.choice, Quot.sound]
'OpenSBLI.Sim.C100_derivatives' depends on axioms: [propext, Classical.choice, Quot.sound]
'OpenSBLI.Sim.C100_uniform_flow' depends on axioms: [propext, Classical.choice, Quot.sound]
'OpenSBLI.Sim.C100_uniform_flow_ls' depends on axioms: [propext, Classical.choice, Quot.sound]
'OpenSBLI.Sim.C100_mirrored' depends on axioms: [propext, Classical.choice, Quot.sound]
'OpenSBLI.Orders.C101_order_one_has_no_second_derivative' depends on axioms: [propext, Classical.choice, Quot.sound]
'OpenSBLI.Orders.C101_central' depends on axioms: [propext, Classical.choice, Quot.sound]
'OpenSBLI.Orders.C101_central_halos' depends on axioms: [propext, Classical.choice, Quot.sound]
'OpenSBLI.Orders.C101_weno' depends on axioms: [propext, Classical.choice, Quot.sound]
'OpenSBLI.Orders.C101_weno_even' depends on axioms: [propext, Classical.choice, Quot.sound]
'OpenSBLI.Orders.C101_teno' depends on axioms: [propext, Classical.choice, Quot.sound]
'OpenSBLI.Orders.C101_runge_kutta' depends on axioms: [propext, Classical.choice, Quot.sound]
'OpenSBLI.Orders.C101_low_storage' depends on axioms: [propext, Classical.choice, Quot.sound]
'OpenSBLI.Orders.C101_formulation_ignored' depends on axioms: [propext, Classical.choice, Quot.sound]
'OpenSBLI.Order.C102_principle_ls4' depends on axioms: [propext, Classical.choice, Quot.sound]
'OpenSBLI.Order.C102_convergence_ls4' depends on axioms: [propext, Classical.choice, Quot.sound]
'OpenSBLI.Order.C102_text_principle_partial' depends on axioms: [propext, Classical.choice, Quot.sound]
'OpenSBLI.Order.C102_text_principle_ls_partial' depends on axioms: [propext, Classical.choice, Quot.sound]
'OpenSBLI.Order.C102_text_principle_ls4_partial' depends on axioms: [propext, Classical.choice, Quot.sound]
'OpenSBLI.Order.C102_text_ls_partial' depends on axioms: [propext, Classical.choice, Quot.sound]
'OpenSBLI.Order.C102_text_ls4_partial' depends on axioms: [propext, Classical.choice, Quot.sound]
'OpenSBLI.Sim.C102_heat' depends on axioms: [propext, Classical.choice, Quot.sound]
'OpenSBLI.Sim.C102_heat_principle' depends on axioms: [propext, Classical.choice, Quot.sound]
'OpenSBLI.Sim.C102_decay' depends on axioms: [propext, Classical.choice, Quot.sound]
'OpenSBLI.Sim.C102_limit' depends on axioms: [propext, Classical.choice, Quot.sound]
'OpenSBLI.Sim.C102_heat_ls4' depends on axioms: [propext, Classical.choice, Quot.sound]
'OpenSBLI.Sim.C102_heat_principle_ls' depends on axioms: [propext, Classical.choice, Quot.sound]
'OpenSBLI.Sim.C102_heat_principle_ls4' depends on axioms: [propext, Classical.choice, Quot.sound]
'OpenSBLI.Order.C102_principle' depends on axioms: [propext, Classical.choice, Quot.sound]
'OpenSBLI.Order.C102_principle_ls' depends on axioms: [propext, Classical.choice, Quot.sound]
'OpenSBLI.Order.C102_convergence' depends on axioms: [propext, Classical.choice, Quot.sound]
'OpenSBLI.Order.C102_convergence_ls' depends on axioms: [propext, Classical.choice, Quot.sound]
'OpenSBLI.Order.C102_text_partial' depends on axioms: [propext, Classical.choice, Quot.sound]
'OpenSBLI.Bc.C102_rod' depends on axioms: [propext, Classical.choice, Quot.sound]
'OpenSBLI.Bc.C102_rod_heat' depends on axioms: [propext, Classical.choice, Quot.sound]
'OpenSBLI.Bc.C102_rod_equilibrium' depends on axioms: [propext, Classical.choice, Quot.sound]
'OpenSBLI.Bc.C102_rod_limit' depends on axioms: [propext, Classical.choice, Quot.sound]
'OpenSBLI.Tex.C103_equation_lost' depends on axioms: [propext, Classical.choice, Quot.sound]
'OpenSBLI.Tex.C103_document' depends on axioms: [propext, Classical.choice, Quot.sound]
'OpenSBLI.Tex.C103_equations' depends on axioms: [propext, Classical.choice, Quot.sound]
'OpenSBLI.Tex.C103_program_partial' depends on axioms: [propext, Classical.choice, Quot.sound]
'OpenSBLI.Tex.C103_underscore' depends on axioms: [propext, Classical.choice, Quot.sound]
'OpenSBLI.Tex.C103_exchange' depends on axioms: [propext, Classical.choice, Quot.sound]
'OpenSBLI.Tex.C103_two_indices' depends on axioms: [propext, Classical.choice, Quot.sound]
'OpenSBLI.Tex.C103_piecewise' depends on axioms: [propext, Classical.choice, Quot.sound]
'OpenSBLI.Tex.C103_condition' depends on axioms: [propext, Classical.choice, Quot.sound]

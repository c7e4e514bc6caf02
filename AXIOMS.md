# Axioms of the theorems in MANIFEST.json

Output of `#print axioms`, grouped.

## none

* `Pymgrit.C15_convergence_keeps`
* `Pymgrit.C17_no_iterations`
* `Pymgrit.Plot.C105_spatial_counterexample`

## propext

* `Pymgrit.C111_observers`
* `Pymgrit.C126_petsc_names_counterexample`
* `Pymgrit.C26_zero`
* `Pymgrit.C27_wrong_warning`
* `Pymgrit.C41_accepted`
* `Pymgrit.Heap.C127_alias`
* `Pymgrit.Heap.C42_clone`
* `Pymgrit.Heap.C42_inplace_alias`
* `Pymgrit.Heap.C42_pair`
* `Pymgrit.Heap.C42_scaling`
* `Pymgrit.Heap.C42_shared_unpack`
* `Pymgrit.Plot.C105_one_process_partial`
* `Pymgrit.Redundant.C140_example`

## propext, Classical.choice, Quot.sound

* `Pymgrit.Apps.AllenCahn.C108_bound_cn_counterexample`
* `Pymgrit.Apps.AllenCahn.C108_bound_cn_partial`
* `Pymgrit.Apps.AllenCahn.C108_bound_imex_counterexample`
* `Pymgrit.Apps.AllenCahn.C108_bound_imex_partial`
* `Pymgrit.Apps.AllenCahn.C108_bound_implicit`
* `Pymgrit.Apps.AllenCahn.C108_energy_imex`
* `Pymgrit.Apps.AllenCahn.C108_energy_implicit`
* `Pymgrit.Apps.AllenCahn.C108_imex`
* `Pymgrit.Apps.AllenCahn.C108_implicit`
* `Pymgrit.Apps.AllenCahn.C108_stability`
* `Pymgrit.Apps.AllenCahn.C108_start`
* `Pymgrit.Apps.AllenCahn.C109_computed_radius`
* `Pymgrit.Apps.AllenCahn.C109_decreasing`
* `Pymgrit.Apps.AllenCahn.C109_exact_radius`
* `Pymgrit.Apps.AllenCahn.C109_sign`
* `Pymgrit.Apps.AllenCahn.C109_start_radius`
* `Pymgrit.Apps.AllenCahn.C109_symmetric`
* `Pymgrit.Apps.AllenCahn.C109_symmetric_start`
* `Pymgrit.Apps.AllenCahn.C109_symmetric_step`
* `Pymgrit.Apps.AllenCahn.C118_cn_close`
* `Pymgrit.Apps.AllenCahn.C118_cn_exists`
* `Pymgrit.Apps.AllenCahn.C118_cn_unique`
* `Pymgrit.Apps.AllenCahn.C118_implicit`
* `Pymgrit.Apps.AllenCahn.C118_implicit_close`
* `Pymgrit.Apps.AllenCahn.C118_implicit_exists`
* `Pymgrit.Apps.AllenCahn.C118_implicit_unique`
* `Pymgrit.Apps.AllenCahn.C118_multiple`
* `Pymgrit.Apps.AllenCahn.C120_cn`
* `Pymgrit.Apps.AllenCahn.C120_contract`
* `Pymgrit.Apps.AllenCahn.C120_implicit`
* `Pymgrit.Apps.AllenCahn.C120_implicit_returns`
* `Pymgrit.Apps.AllenCahn.C120_quadratic`
* `Pymgrit.Apps.AllenCahn.C51_bounded_partial`
* `Pymgrit.Apps.AllenCahn.C51_imex`
* `Pymgrit.Apps.AllenCahn.C51_loop`
* `Pymgrit.Apps.AllenCahn.C51_no_iterations`
* `Pymgrit.Apps.AllenCahn.C60_stationary`
* `Pymgrit.Apps.AllenCahn.C60_stencil`
* `Pymgrit.Apps.AllenCahn.C86_crank_nicolson`
* `Pymgrit.Apps.AllenCahn.C86_imex`
* `Pymgrit.Apps.AllenCahn.C86_implicit`
* `Pymgrit.Apps.AllenCahn.C86_newton_matrix`
* `Pymgrit.Apps.C45_counterexample`
* `Pymgrit.Apps.C45_midpoint_iff`
* `Pymgrit.Apps.C45_names`
* `Pymgrit.Apps.C45_scheme_partial`
* `Pymgrit.Apps.C45_stable`
* `Pymgrit.Apps.C46_max`
* `Pymgrit.Apps.C46_max_no_source`
* `Pymgrit.Apps.C46_norm`
* `Pymgrit.Apps.C46_positive`
* `Pymgrit.Apps.C46_stencil`
* `Pymgrit.Apps.C46_wellposed`
* `Pymgrit.Apps.C47_entries`
* `Pymgrit.Apps.C49_mass`
* `Pymgrit.Apps.C49_max`
* `Pymgrit.Apps.C49_norm`
* `Pymgrit.Apps.C49_stencil`
* `Pymgrit.Apps.C49_wellposed`
* `Pymgrit.Apps.C50_quadratic`
* `Pymgrit.Apps.C50_start`
* `Pymgrit.Apps.C50_steady`
* `Pymgrit.Apps.C50_wellposed`
* `Pymgrit.Apps.C51_counterexample`
* `Pymgrit.Apps.C58_linear`
* `Pymgrit.Apps.C58_linear_pair`
* `Pymgrit.Apps.C58_start`
* `Pymgrit.Apps.C58_two_steps`
* `Pymgrit.Apps.Heat2D.C101_heat_2d`
* `Pymgrit.Apps.Heat2D.C122_heat_2d`
* `Pymgrit.Apps.Heat2D.C122_heat_2d_solve`
* `Pymgrit.Apps.Heat2D.C47_stencil`
* `Pymgrit.Apps.Heat2D.C48_forward`
* `Pymgrit.Apps.Heat2D.C48_forward_counterexample`
* `Pymgrit.Apps.Heat2D.C48_forward_iff`
* `Pymgrit.Apps.Heat2D.C48_implicit_partial`
* `Pymgrit.Apps.Heat2D.C48_start`
* `Pymgrit.Apps.Heat2D.C59_max`
* `Pymgrit.Apps.Heat2D.C59_wellposed`
* `Pymgrit.Apps.Heat2D.C59_wellposed_forward`
* `Pymgrit.Apps.Heat2D.C71_solve_heat_2d`
* `Pymgrit.Apps.Heat2D.C82_exact`
* `Pymgrit.Apps.Heat2D.C82_implicit`
* `Pymgrit.Apps.Heat2D.C82_scheme`
* `Pymgrit.Apps.Heat2D.C90_heat_2d`
* `Pymgrit.Apps.Heat2D.C93_heat_2d`
* `Pymgrit.At.C37_attribute_error`
* `Pymgrit.At.C37_rejects`
* `Pymgrit.At.C37_value_if_created`
* `Pymgrit.At.C37_window_delivered`
* `Pymgrit.Burgers.C117_amount`
* `Pymgrit.Burgers.C117_amount_returned`
* `Pymgrit.Burgers.C117_energy`
* `Pymgrit.Burgers.C117_exists`
* `Pymgrit.Burgers.C117_stable`
* `Pymgrit.Burgers.C117_unique`
* `Pymgrit.Burgers.C117_unique_small`
* `Pymgrit.C02_owner_of_time`
* `Pymgrit.C02_unique_owner`
* `Pymgrit.C03_getFrom`
* `Pymgrit.C03_no_partner`
* `Pymgrit.C03_sendTo`
* `Pymgrit.C03_symmetric`
* `Pymgrit.C04_exclusive`
* `Pymgrit.C04_neighbours`
* `Pymgrit.C04_partner_exists`
* `Pymgrit.C05_pairing`
* `Pymgrit.C05_partition`
* `Pymgrit.C06_counterexample`
* `Pymgrit.C06_iff`
* `Pymgrit.C06_isolated_partial`
* `Pymgrit.C06_python_counterexample`
* `Pymgrit.C06_python_partial`
* `Pymgrit.C06_python_runs`
* `Pymgrit.C06_python_uniform`
* `Pymgrit.C06_python_wrong_solution`
* `Pymgrit.C06_rotated_partial`
* `Pymgrit.C06_sorted`
* `Pymgrit.C07_fRelax`
* `Pymgrit.C09_coarsest_solve`
* `Pymgrit.C09_level0`
* `Pymgrit.C09_unique`
* `Pymgrit.C101_advection`
* `Pymgrit.C101_heat_1d`
* `Pymgrit.C101_heat_1d_solve`
* `Pymgrit.C102_backward_euler`
* `Pymgrit.C102_forward_euler`
* `Pymgrit.C102_midpoint_counterexample`
* `Pymgrit.C102_midpoint_partial`
* `Pymgrit.C102_solve`
* `Pymgrit.C102_trapezoidal`
* `Pymgrit.C103_at_mgrit`
* `Pymgrit.C103_dahlquist`
* `Pymgrit.C103_heat_1d`
* `Pymgrit.C103_rate_V`
* `Pymgrit.C103_rate_two`
* `Pymgrit.C103_symmetric`
* `Pymgrit.C104_dahlquist`
* `Pymgrit.C104_factor_V`
* `Pymgrit.C104_factor_two`
* `Pymgrit.C104_heat_1d`
* `Pymgrit.C104_inexact`
* `Pymgrit.C104_symmetric`
* `Pymgrit.C106_first_iteration`
* `Pymgrit.C106_iteration`
* `Pymgrit.C106_nested`
* `Pymgrit.C106_processes`
* `Pymgrit.C106_solve`
* `Pymgrit.C106_values`
* `Pymgrit.C10_after_constructor`
* `Pymgrit.C10_distributed`
* `Pymgrit.C10_one_level`
* `Pymgrit.C110_autonomous`
* `Pymgrit.C110_change_of_time`
* `Pymgrit.C110_positions`
* `Pymgrit.C110_unit_and_origin`
* `Pymgrit.C111_longer_run`
* `Pymgrit.C111_observers_processes`
* `Pymgrit.C111_processes`
* `Pymgrit.C112_backward_counterexample`
* `Pymgrit.C112_one_process_partial`
* `Pymgrit.C112_repeated_counterexample`
* `Pymgrit.C113_global`
* `Pymgrit.C113_local_partial`
* `Pymgrit.C113_local_raises`
* `Pymgrit.C114_beyond`
* `Pymgrit.C114_iterations`
* `Pymgrit.C114_messages`
* `Pymgrit.C114_tag_bound`
* `Pymgrit.C114_tags_partial`
* `Pymgrit.C115_absolute`
* `Pymgrit.C115_float_dahlquist`
* `Pymgrit.C115_float_heat_1d`
* `Pymgrit.C115_heat_1d`
* `Pymgrit.C115_relative`
* `Pymgrit.C115_room_two`
* `Pymgrit.C115_round_to_nearest`
* `Pymgrit.C115_symmetric`
* `Pymgrit.C11_initial_value`
* `Pymgrit.C121_accuracy`
* `Pymgrit.C121_energy`
* `Pymgrit.C121_ratio`
* `Pymgrit.C121_stable`
* `Pymgrit.C122_bdf2`
* `Pymgrit.C122_documented_rhs`
* `Pymgrit.C122_heat_1d`
* `Pymgrit.C122_heat_1d_numbers`
* `Pymgrit.C122_heat_1d_solve`
* `Pymgrit.C126_complete`
* `Pymgrit.C126_directories_partial`
* `Pymgrit.C126_iterates_partial`
* `Pymgrit.C126_leftover_counterexample`
* `Pymgrit.C126_petsc_names_partial`
* `Pymgrit.C126_race_counterexample`
* `Pymgrit.C126_solution_partial`
* `Pymgrit.C128_factor`
* `Pymgrit.C128_max_dt`
* `Pymgrit.C128_silent`
* `Pymgrit.C128_simple_setup`
* `Pymgrit.C128_times`
* `Pymgrit.C128_warning_counterexample`
* `Pymgrit.C128_warning_partial`
* `Pymgrit.C12_distributed`
* `Pymgrit.C12_fixed_point`
* `Pymgrit.C136_balance_counterexample`
* `Pymgrit.C136_balance_partial`
* `Pymgrit.C136_count`
* `Pymgrit.C136_idle`
* `Pymgrit.C136_loops_partial`
* `Pymgrit.C136_optimal_partial`
* `Pymgrit.C136_products`
* `Pymgrit.C136_setup`
* `Pymgrit.C137_dahlquist`
* `Pymgrit.C137_histories`
* `Pymgrit.C137_history_matters`
* `Pymgrit.C137_memory`
* `Pymgrit.C137_memoryless`
* `Pymgrit.C137_solve_calls`
* `Pymgrit.C137_stopped`
* `Pymgrit.C13_distributed`
* `Pymgrit.C13_stale`
* `Pymgrit.C14_distributed`
* `Pymgrit.C14_finite_termination`
* `Pymgrit.C14_finite_termination_any_weight`
* `Pymgrit.C14_prefix`
* `Pymgrit.C14_prefix_any_weight`
* `Pymgrit.C14_stale`
* `Pymgrit.C15_skip_first_f_relax`
* `Pymgrit.C16_full_residual`
* `Pymgrit.C16_three_norms`
* `Pymgrit.C17_stopping_rule`
* `Pymgrit.C18_distributed_partial`
* `Pymgrit.C18_history_nonzero`
* `Pymgrit.C18_history_partial`
* `Pymgrit.C19_output_schedule`
* `Pymgrit.C20_adjacent_c_points`
* `Pymgrit.C20_float_partial`
* `Pymgrit.C20_process_count_partial`
* `Pymgrit.C20_restart`
* `Pymgrit.C20_restart_else`
* `Pymgrit.C20_right_iff`
* `Pymgrit.C20_right_iff_residual`
* `Pymgrit.C20_same_as_serial_partial`
* `Pymgrit.C20_same_solution`
* `Pymgrit.C20_stale`
* `Pymgrit.C21_schedule_independent`
* `Pymgrit.C21_stale`
* `Pymgrit.C22_no_infinite_run`
* `Pymgrit.C22_stale`
* `Pymgrit.C22_terminates`
* `Pymgrit.C23_no_mismatch`
* `Pymgrit.C24_accepts_partial`
* `Pymgrit.C24_constructor`
* `Pymgrit.C24_documented_error`
* `Pymgrit.C24_one_point_grid`
* `Pymgrit.C24_parameters`
* `Pymgrit.C25_cf_iter`
* `Pymgrit.C25_rejects`
* `Pymgrit.C26_accepted`
* `Pymgrit.C26_cpoints`
* `Pymgrit.C26_hierarchy`
* `Pymgrit.C26_no_adjacent`
* `Pymgrit.C26_valid`
* `Pymgrit.C27_index_error`
* `Pymgrit.C27_negative`
* `Pymgrit.C27_warning_partial`
* `Pymgrit.C28_ranks`
* `Pymgrit.C28_sizes`
* `Pymgrit.C29_time_only_partial`
* `Pymgrit.C29_type_error`
* `Pymgrit.C30`
* `Pymgrit.C31_counterexample`
* `Pymgrit.C32_jump_counterexample`
* `Pymgrit.C32_norm_counterexample`
* `Pymgrit.C32_partial`
* `Pymgrit.C32_zero_cf_counterexample`
* `Pymgrit.C33_counterexample`
* `Pymgrit.C34_coarsest_solve`
* `Pymgrit.C34_one_level`
* `Pymgrit.C34_whole_run`
* `Pymgrit.C35_window_only`
* `Pymgrit.C35_window_value`
* `Pymgrit.C36_finite_termination`
* `Pymgrit.C36_fixed_point`
* `Pymgrit.C36_prefix`
* `Pymgrit.C36_prefix_weight_one`
* `Pymgrit.C38_coarse_solve_count`
* `Pymgrit.C39_two_levels`
* `Pymgrit.C40_causal`
* `Pymgrit.C40_distributed`
* `Pymgrit.C41_example`
* `Pymgrit.C41_hangs`
* `Pymgrit.C41_raises`
* `Pymgrit.C53_required`
* `Pymgrit.C54_one_writer`
* `Pymgrit.C55_index_ranges`
* `Pymgrit.C56_history_partial`
* `Pymgrit.C56_keeps_exact`
* `Pymgrit.C56_resume`
* `Pymgrit.C64_tolerance`
* `Pymgrit.C65_stop_order`
* `Pymgrit.C66_schedule_independent`
* `Pymgrit.C67_set_contents`
* `Pymgrit.C68_distributed`
* `Pymgrit.C68_ideal_coarse`
* `Pymgrit.C69_parareal`
* `Pymgrit.C69_two_level_update`
* `Pymgrit.C71_a_posteriori`
* `Pymgrit.C71_distributed`
* `Pymgrit.C71_solve`
* `Pymgrit.C71_solve_heat_1d`
* `Pymgrit.C71_solve_tolerance`
* `Pymgrit.C71_stopped_distributed`
* `Pymgrit.C71_tolerance`
* `Pymgrit.C72_distributed`
* `Pymgrit.C72_two_level_bound`
* `Pymgrit.C73_distributed`
* `Pymgrit.C73_equivariant`
* `Pymgrit.C73_equivariant_nested`
* `Pymgrit.C74_conserved`
* `Pymgrit.C74_conserved_nested`
* `Pymgrit.C74_distributed`
* `Pymgrit.C74_subspace`
* `Pymgrit.C75_serial_result`
* `Pymgrit.C76_all_or_none`
* `Pymgrit.C76_crash_blocks`
* `Pymgrit.C76_exception`
* `Pymgrit.C77_early_wait`
* `Pymgrit.C77_early_wait_local`
* `Pymgrit.C78_calls`
* `Pymgrit.C78_forward_in_time`
* `Pymgrit.C85_distributed`
* `Pymgrit.C85_next_iteration_partial`
* `Pymgrit.C85_values`
* `Pymgrit.C87_objects_as_values`
* `Pymgrit.C87_results`
* `Pymgrit.C88_dahlquist`
* `Pymgrit.C88_dahlquist_nested`
* `Pymgrit.C89_heat_1d`
* `Pymgrit.C89_heat_1d_nested`
* `Pymgrit.C89_symmetric`
* `Pymgrit.C89_symmetric_nested`
* `Pymgrit.C92_error`
* `Pymgrit.C92_superposition`
* `Pymgrit.C93_dahlquist`
* `Pymgrit.C93_dahlquist_nested`
* `Pymgrit.C93_heat_1d`
* `Pymgrit.C93_heat_1d_nested`
* `Pymgrit.C93_multilevel`
* `Pymgrit.C93_nested`
* `Pymgrit.C93_rate_F`
* `Pymgrit.C93_rate_V`
* `Pymgrit.C93_rate_over`
* `Pymgrit.C93_symmetric`
* `Pymgrit.C93_symmetric_nested`
* `Pymgrit.C94_bdf1`
* `Pymgrit.C94_bdf1_nested`
* `Pymgrit.C95_distributed`
* `Pymgrit.C95_finite_termination`
* `Pymgrit.C95_no_relaxation_distributed`
* `Pymgrit.C95_prefix`
* `Pymgrit.C96_counterexample`
* `Pymgrit.C96_counterexample_distributed`
* `Pymgrit.C96_lossless`
* `Pymgrit.C96_lossless_distributed`
* `Pymgrit.C96_lossy`
* `Pymgrit.C96_lossy_partial`
* `Pymgrit.C96_stationary`
* `Pymgrit.C96_weight_counterexample`
* `Pymgrit.C97_dahlquist`
* `Pymgrit.C97_dahlquist_tolerance`
* `Pymgrit.C97_heat_1d`
* `Pymgrit.C97_heat_1d_tolerance`
* `Pymgrit.C97_jump`
* `Pymgrit.C97_symmetric`
* `Pymgrit.C98_dahlquist`
* `Pymgrit.C98_dahlquist_nested`
* `Pymgrit.C98_heat_1d`
* `Pymgrit.C98_heat_1d_nested`
* `Pymgrit.C98_iterations`
* `Pymgrit.C98_symmetric`
* `Pymgrit.C98_symmetric_nested`
* `Pymgrit.Custom.C125_counterexample`
* `Pymgrit.Custom.C125_error_partial`
* `Pymgrit.Custom.C125_history_counterexample`
* `Pymgrit.Custom.C125_processes`
* `Pymgrit.Custom.C125_stops_partial`
* `Pymgrit.Custom.C125_terminates`
* `Pymgrit.Custom.C125_zero_partial`
* `Pymgrit.Depth.C138_at`
* `Pymgrit.Depth.C138_chain`
* `Pymgrit.Depth.C138_coarsening`
* `Pymgrit.Depth.C138_one_level`
* `Pymgrit.Depth.C138_sequential_part`
* `Pymgrit.Depth.C138_values`
* `Pymgrit.Double.C130_counterexample`
* `Pymgrit.Double.C130_increasing`
* `Pymgrit.Double.C130_nested_partial`
* `Pymgrit.Double.C130_rounding`
* `Pymgrit.Double.C130_split`
* `Pymgrit.Double.C130_valid_partial`
* `Pymgrit.Firedrake.C116_amount_returned`
* `Pymgrit.Firedrake.C116_default_partial`
* `Pymgrit.Firedrake.C116_mesh`
* `Pymgrit.Firedrake.C116_periodic`
* `Pymgrit.Firedrake.C116_periodic_counterexample`
* `Pymgrit.Firedrake.C116_returned`
* `Pymgrit.Firedrake.C116_returned_nested`
* `Pymgrit.Firedrake.TriMesh.C116_amount`
* `Pymgrit.Firedrake.TriMesh.C116_constant`
* `Pymgrit.Firedrake.TriMesh.C116_penalty`
* `Pymgrit.Firedrake.TriMesh.C116_stable_iff`
* `Pymgrit.Firedrake.TriMesh.C116_unstable`
* `Pymgrit.Firedrake.TriMesh.C116_wellposed_iff`
* `Pymgrit.GetDP.C83_broadcast`
* `Pymgrit.GetDP.C83_decreasing`
* `Pymgrit.GetDP.C83_last`
* `Pymgrit.GetDP.C83_read`
* `Pymgrit.GetDP.C83_round_trip`
* `Pymgrit.GetDP.C83_truncated_partial`
* `Pymgrit.GetDP.C84_solver`
* `Pymgrit.GetDP.C84_step`
* `Pymgrit.GetDP.C84_time_step`
* `Pymgrit.GetDP.C84_time_unchecked`
* `Pymgrit.GetDP.C84_values_only`
* `Pymgrit.Ieee.C131_counterexample`
* `Pymgrit.Ieee.C131_jump_partial`
* `Pymgrit.Ieee.C131_local_partial`
* `Pymgrit.Ieee.C131_norm`
* `Pymgrit.Ieee.C131_not_a_number`
* `Pymgrit.Ieee.C131_residuals`
* `Pymgrit.Ieee.C131_runs_on_partial`
* `Pymgrit.Ieee.C131_underflow`
* `Pymgrit.Ieee.C131_values_partial`
* `Pymgrit.Jl.C107_criterion_partial`
* `Pymgrit.Jl.C107_first_value`
* `Pymgrit.Jl.C107_history_counterexample`
* `Pymgrit.Jl.C107_nested_partial`
* `Pymgrit.Jl.C107_processes`
* `Pymgrit.Jl.C107_solve_partial`
* `Pymgrit.Jl.C107_zero_counterexample`
* `Pymgrit.Machine.C44_fine_size`
* `Pymgrit.Machine.C44_needs_double`
* `Pymgrit.Machine.C44_restrict_interpolate`
* `Pymgrit.MachineGrid.C139_alternate`
* `Pymgrit.MachineGrid.C139_exact`
* `Pymgrit.MachineGrid.C139_final_time_counterexample`
* `Pymgrit.MachineGrid.C139_internal_step`
* `Pymgrit.MachineGrid.C139_kept`
* `Pymgrit.MachineGrid.C139_remainder`
* `Pymgrit.MachineGrid.C139_runs`
* `Pymgrit.MachineGrid.C139_shipped`
* `Pymgrit.MachineGrid.C139_shipped_runs`
* `Pymgrit.MachineGrid.C139_valid`
* `Pymgrit.MachineGrid.C139_values`
* `Pymgrit.Mesh.C133_arrays`
* `Pymgrit.Mesh.C133_constructor`
* `Pymgrit.Mesh.C133_key_error`
* `Pymgrit.Mesh.C133_lookup`
* `Pymgrit.Mesh.C133_no_error_partial`
* `Pymgrit.Mesh.C133_read`
* `Pymgrit.Mesh.C133_returns_partial`
* `Pymgrit.Mesh.C133_version_counterexample`
* `Pymgrit.Mesh.C79_compute_raises`
* `Pymgrit.Mesh.C79_raises`
* `Pymgrit.Mesh.C80_gap`
* `Pymgrit.Mesh.C80_linear_partial`
* `Pymgrit.Mesh.C80_not_constant`
* `Pymgrit.Mesh.C81_dropped`
* `Pymgrit.Mesh.C81_nodes_partial`
* `Pymgrit.Mesh.C81_read`
* `Pymgrit.Opt.C129_complete_partial`
* `Pymgrit.Opt.C129_ends_partial`
* `Pymgrit.Opt.C129_mean`
* `Pymgrit.Opt.C129_reads`
* `Pymgrit.Opt.C129_region`
* `Pymgrit.Opt.C129_values_partial`
* `Pymgrit.Opt.C135_criterion_partial`
* `Pymgrit.Opt.C135_first`
* `Pymgrit.Opt.C135_gather`
* `Pymgrit.Opt.C135_processes`
* `Pymgrit.Opt.C135_zero_counterexample`
* `Pymgrit.Orbit.C91_documentation`
* `Pymgrit.Orbit.C91_jacobi`
* `Pymgrit.Orbit.C91_reversible`
* `Pymgrit.Petsc.C118_exists`
* `Pymgrit.Petsc.C118_imex`
* `Pymgrit.Petsc.C118_rest_multiple`
* `Pymgrit.Petsc.C118_rest_newton`
* `Pymgrit.Petsc.C118_rest_unique`
* `Pymgrit.Petsc.C118_unique`
* `Pymgrit.Petsc.C119_counterexample`
* `Pymgrit.Petsc.C119_expl_balance`
* `Pymgrit.Petsc.C119_expl_partial`
* `Pymgrit.Petsc.C119_imex_balance`
* `Pymgrit.Petsc.C119_imex_partial`
* `Pymgrit.Petsc.C119_impl`
* `Pymgrit.Petsc.C119_impl_balance`
* `Pymgrit.Petsc.C119_impl_bound`
* `Pymgrit.Petsc.C119_initial`
* `Pymgrit.Petsc.C119_initial_trivial`
* `Pymgrit.Petsc.C119_rest`
* `Pymgrit.Petsc.C119_support`
* `Pymgrit.Petsc.C119_trivial_run`
* `Pymgrit.Petsc.C123_counterexample`
* `Pymgrit.Petsc.C123_error`
* `Pymgrit.Petsc.C123_square`
* `Pymgrit.Petsc.C123_square_partial`
* `Pymgrit.Petsc.C123_step`
* `Pymgrit.Petsc.C123_time_stepping`
* `Pymgrit.Petsc.C124_bilinear`
* `Pymgrit.Petsc.C124_boundary`
* `Pymgrit.Petsc.C124_bounds`
* `Pymgrit.Petsc.C124_coordinates`
* `Pymgrit.Petsc.C124_interpolate_exact`
* `Pymgrit.Petsc.C124_restrict_interpolate`
* `Pymgrit.Petsc.C124_same_problem`
* `Pymgrit.Petsc.C124_solve`
* `Pymgrit.Petsc.C61_close`
* `Pymgrit.Petsc.C61_counterexample`
* `Pymgrit.Petsc.C61_history_partial`
* `Pymgrit.Petsc.C61_results_differ`
* `Pymgrit.Petsc.C61_reused`
* `Pymgrit.Petsc.C62_counterexample`
* `Pymgrit.Petsc.C62_exchanged`
* `Pymgrit.Petsc.C62_stencil_partial`
* `Pymgrit.Petsc.C63_counterexample`
* `Pymgrit.Petsc.C63_defect`
* `Pymgrit.Petsc.C63_jacobian_partial`
* `Pymgrit.Petsc.C63_residual`
* `Pymgrit.Plot.C105_coarsest_counterexample`
* `Pymgrit.Plot.C105_convergence_partial`
* `Pymgrit.Plot.C105_cycle_partial`
* `Pymgrit.Plot.C105_distribution_partial`
* `Pymgrit.Plot.C105_fcycle_counterexample`
* `Pymgrit.Plot.C105_one_level_counterexample`
* `Pymgrit.Redundant.C140_counterexample`
* `Pymgrit.Redundant.C140_defaults_counterexample`
* `Pymgrit.Redundant.C140_no_effect`
* `Pymgrit.Redundant.C140_returned_partial`
* `Pymgrit.Redundant.C140_run_partial`
* `Pymgrit.Script.C132_as_alone_partial`
* `Pymgrit.Script.C132_decision_counterexample`
* `Pymgrit.Script.C132_one_after_another_partial`
* `Pymgrit.Script.C132_same_as_serial_partial`
* `Pymgrit.Script.C132_second_solve_counterexample`
* `Pymgrit.Script.C132_terminates_partial`
* `Pymgrit.Shell.C134_blank_counterexample`
* `Pymgrit.Shell.C134_directory_counterexample`
* `Pymgrit.Shell.C134_directory_partial`
* `Pymgrit.Shell.C134_files`
* `Pymgrit.Shell.C134_name`
* `Pymgrit.Shell.C134_options_partial`
* `Pymgrit.Shell.C134_quotes`
* `Pymgrit.Shell.C134_words_partial`
* `Pymgrit.Space.C100_advection`
* `Pymgrit.Space.C100_allen_cahn_counterexample`
* `Pymgrit.Space.C100_cubic`
* `Pymgrit.Space.C100_heat_1d`
* `Pymgrit.Space.C100_heat_2d`
* `Pymgrit.Space.C100_meshes_partial`
* `Pymgrit.Space.C100_nested`
* `Pymgrit.Space.C99_adjoint`
* `Pymgrit.Space.C99_bounds`
* `Pymgrit.Space.C99_coarse_point`
* `Pymgrit.Space.C99_finite_termination`
* `Pymgrit.Space.C99_galerkin`
* `Pymgrit.Space.C99_linear`
* `Pymgrit.Space.C99_midpoint`
* `Pymgrit.Space.C99_no_relaxation`
* `Pymgrit.Space.C99_not_inverse`
* `Pymgrit.Space.C99_sizes`

## propext, Quot.sound

* `Pymgrit.Apps.C52_equilibrium`
* `Pymgrit.Apps.C52_only_equilibrium`
* `Pymgrit.Apps.C52_runge_kutta`
* `Pymgrit.Apps.C52_zero_step`
* `Pymgrit.C01_block_distribution`
* `Pymgrit.C01_too_many_processes`
* `Pymgrit.C07_fRelax_unique`
* `Pymgrit.C08_cRelax`
* `Pymgrit.C08_cRelax_old`
* `Pymgrit.C112_backward_source`
* `Pymgrit.C113_one_point`
* `Pymgrit.C113_other_norms`
* `Pymgrit.C136_fpoints_sharp`
* `Pymgrit.C137_calls`
* `Pymgrit.C13_zero_residual`
* `Pymgrit.C17_jump_value`
* `Pymgrit.C18_zero_dropped`
* `Pymgrit.C23_check`
* `Pymgrit.C25_used`
* `Pymgrit.C28_grid`
* `Pymgrit.C30_tags`
* `Pymgrit.C31_clean_up`
* `Pymgrit.C31_partial`
* `Pymgrit.C33_partial`
* `Pymgrit.C35_in_range`
* `Pymgrit.C38_ends_relaxed`
* `Pymgrit.C39_keeps`
* `Pymgrit.C53_time_grid`
* `Pymgrit.C54_one_writer_time`
* `Pymgrit.C56_stale_history`
* `Pymgrit.C69_fine_points`
* `Pymgrit.C70_cycles_agree`
* `Pymgrit.C75_same_result`
* `Pymgrit.C85_counterexample`
* `Pymgrit.C87_in_place_counterexample`
* `Pymgrit.C95_no_relaxation`
* `Pymgrit.Heap.C127_methods`
* `Pymgrit.Heap.C127_values`
* `Pymgrit.Heap.C42_arithmetic`
* `Pymgrit.Heap.C42_clone_zero`
* `Pymgrit.Heap.C42_invariant`
* `Pymgrit.Heap.C42_no_interference`
* `Pymgrit.Heap.C42_pack_unpack`
* `Pymgrit.Jl.C107_nested_counterexample`
* `Pymgrit.Jl.C107_nested_state`
* `Pymgrit.Jl.C107_solve_counterexample`
* `Pymgrit.Machine.C43_empty_back`
* `Pymgrit.Machine.C43_flatten_partial`
* `Pymgrit.Mesh.C79_all`
* `Pymgrit.Mesh.C79_new`
* `Pymgrit.Mesh.C80_weights`
* `Pymgrit.Opt.C129_counterexample`
* `Pymgrit.Petsc.C62_boundary`
* `Pymgrit.Plot.C105_convergence_counterexample`
* `Pymgrit.Plot.C105_cycle_counterexample`
* `Pymgrit.Redundant.C140_conditions_needed`
* `Pymgrit.Redundant.C140_relaxation_solves`

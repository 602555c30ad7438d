AMPE.EventInterval.Props.c01_step_schedule: [propext, Classical.choice, Quot.sound]
AMPE.EventInterval.Props.c01_step_schedule_primed: [propext, Classical.choice, Quot.sound]
AMPE.EventInterval.Props.c01_yes_is_remembered: [propext, Classical.choice, Quot.sound]
AMPE.EventInterval.Props.c02_time_schedule: [propext, Classical.choice, Quot.sound]
AMPE.EventInterval.Props.c02_no_multiple_skipped: [propext, Classical.choice, Quot.sound]
AMPE.EventInterval.Props.c02_unprimed_first_crossing_lost: [propext, Classical.choice, Quot.sound]
AMPE.EventInterval.Props.c02_overflow_is_undefined: [propext, Classical.choice, Quot.sound]
AMPE.EventInterval.Props.c02_default_interval: [propext, Classical.choice, Quot.sound]
AMPE.EventInterval.Props.c02_input_interval: [propext, Classical.choice, Quot.sound]
AMPE.EventInterval.Props.c03_no_double_event: [propext, Classical.choice, Quot.sound]
AMPE.EventInterval.Props.c03_one_event_per_time: [propext, Classical.choice, Quot.sound]
AMPE.EventInterval.Props.c03_inactive_never_fires: [propext, Classical.choice, Quot.sound]
AMPE.EventInterval.Props.c03_inactive_never_reports: [propext, Classical.choice, Quot.sound]
AMPE.RunLoop.Props.c04_runs_until_first_stop: [propext, Classical.choice, Quot.sound]
AMPE.RunLoop.Props.c04_first_stop_unique: [propext, Classical.choice, Quot.sound]
AMPE.RunLoop.Props.c04_cycle_limit: [propext, Classical.choice, Quot.sound]
AMPE.RunLoop.Props.c04_bounded_by_time: [propext, Classical.choice, Quot.sound]
AMPE.RunLoop.Props.c04_step_runs_complete: [propext, Classical.choice, Quot.sound]
AMPE.RunLoop.Props.c04_single_level_no_regrid: [propext, Classical.choice, Quot.sound]
AMPE.RunLoop.Props.c05_initial_restart_ignores_restart_schedule: [propext, Classical.choice, Quot.sound]
AMPE.RunLoop.Props.c05_initial_restart_follows_regrid_schedule: [propext, Classical.choice, Quot.sound]
AMPE.RunLoop.Props.c05_violation: [propext, Classical.choice, Quot.sound]
AMPE.RunLoop.Props.c06_final_plot_once_partial: [propext, Classical.choice, Quot.sound]
AMPE.RunLoop.Props.c06_zero_cycle_run: [propext, Classical.choice, Quot.sound]
AMPE.RunLoop.Props.c06_violation: [propext, Classical.choice, Quot.sound]
AMPE.RunLoop.Props.c06_plot_list: [propext, Classical.choice, Quot.sound]
AMPE.RunLoop.Props.c07_restart_round_trip: [propext, Classical.choice, Quot.sound]
AMPE.RunLoop.Props.c07_restart_restores_position: [propext, Classical.choice, Quot.sound]
AMPE.RunLoop.Props.c07_delta_cycles_partial: [propext, Classical.choice, Quot.sound]
AMPE.RunLoop.Props.c07_limit_precedence_clash: [propext, Classical.choice, Quot.sound]
AMPE.RunLoop.Props.c07_fresh_run: [propext, Classical.choice, Quot.sound]
AMPE.RunLoop.Props.c07_resumed_run_length_partial: [propext, Classical.choice, Quot.sound]
AMPE.TemperatureHistory.Props.c08_bilinear: [propext, Classical.choice, Quot.sound]
AMPE.TemperatureHistory.Props.c08_between: [propext, Classical.choice, Quot.sound]
AMPE.TemperatureHistory.Props.c08_node_exact: [propext, Classical.choice, Quot.sound]
AMPE.TemperatureHistory.Props.c08_gradient_affine: [propext, Classical.choice, Quot.sound]
AMPE.TemperatureHistory.Props.c08_outside: [propext, Classical.choice, Quot.sound]
AMPE.TemperatureHistory.Props.c08_violation_first_position: [propext, Classical.choice, Quot.sound]
AMPE.TemperatureHistory.Props.c08_undefined_iff_partial: [propext, Classical.choice, Quot.sound]
AMPE.PairWeights.Props.c09_partition_of_unity: [propext, Classical.choice, Quot.sound]
AMPE.PairWeights.Props.c09_two_phase: [propext, Classical.choice, Quot.sound]
AMPE.PairWeights.Props.c09_swap_12: [propext, Classical.choice, Quot.sound]
AMPE.PairWeights.Props.c09_swap_01: [propext, Classical.choice, Quot.sound]
AMPE.Functions.Props.c10_supported_kinds: [propext, Classical.choice, Quot.sound]
AMPE.Functions.Props.c10_endpoints: [propext, Classical.choice, Quot.sound]
AMPE.Functions.Props.c10_monotone: [propext, Classical.choice, Quot.sound]
AMPE.Functions.Props.c10_range: [propext, Classical.choice, Quot.sound]
AMPE.Functions.Props.c10_clamped_outside: [propext, Classical.choice, Quot.sound]
AMPE.Functions.Props.c10_clamped_below: [propext, Classical.choice, Quot.sound]
AMPE.Functions.Props.c10_s_not_clamped: [propext, Classical.choice, Quot.sound]
AMPE.Functions.Props.c11_first_partial: [propext, Classical.choice, Quot.sound]
AMPE.Functions.Props.c11_violation_l: [propext, Classical.choice, Quot.sound]
AMPE.Functions.Props.c11_violation_s: [propext, Classical.choice, Quot.sound]
AMPE.Functions.Props.c11_second_supported: [propext, Classical.choice, Quot.sound]
AMPE.Functions.Props.c11_second_partial: [propext, Classical.choice, Quot.sound]
AMPE.Functions.Props.c11_violation_second_h: [propext, Classical.choice, Quot.sound]
AMPE.Functions.Props.c11_violation_second_w: [propext, Classical.choice, Quot.sound]
AMPE.Functions.Props.c12_double_well: [propext, Classical.choice, Quot.sound]
AMPE.Functions.Props.c12_barrier: [propext, Classical.choice, Quot.sound]
AMPE.Functions.Props.c12_single_well: [propext, Classical.choice, Quot.sound]
AMPE.Functions.Props.c12_derivatives: [propext, Classical.choice, Quot.sound]
AMPE.Functions.Props.c12_other_kinds_abort: [propext, Classical.choice, Quot.sound]
AMPE.Functions.Props.c13_symmetric: [propext, Classical.choice, Quot.sound]
AMPE.Functions.Props.c13_between: [propext, Classical.choice, Quot.sound]
AMPE.Functions.Props.c13_between_nonneg: [propext, Classical.choice, Quot.sound]
AMPE.Functions.Props.c13_equal_values: [propext, Classical.choice, Quot.sound]
AMPE.Functions.Props.c13_harmonic_denominator: [propext, Classical.choice, Quot.sound]
AMPE.Functions.Props.c13_harmonic_le_arithmetic: [propext, Classical.choice, Quot.sound]
AMPE.Functions.Props.c13_deriv_arithmetic_partial: [propext, Classical.choice, Quot.sound]
AMPE.Functions.Props.c13_violation_deriv_harmonic: [propext, Classical.choice, Quot.sound]
AMPE.Quat.Props.c14_product_is_hamilton: [propext, Classical.choice, Quot.sound]
AMPE.Quat.Props.c14_aborts_iff: [propext, Classical.choice, Quot.sound]
AMPE.Quat.Props.c14_length: [propext, Classical.choice, Quot.sound]
AMPE.Quat.Props.c14_inverse: [propext, Classical.choice, Quot.sound]
AMPE.Quat.Props.c14_index_returned: [propext, Classical.choice, Quot.sound]
AMPE.Quat.Props.c14_closed: [propext, Classical.choice, Quot.sound]
AMPE.Quat.Props.c14_identity: [propext, Classical.choice, Quot.sound]
AMPE.Quat.Props.c14_table_complete: [propext, Classical.choice, Quot.sound]
AMPE.Quat.Props.c14_table_sound: [propext, Classical.choice, Quot.sound]
AMPE.Quat.Props.c14_two_components: [propext, Classical.choice, Quot.sound]
AMPE.Quat.Props.c14_two_components_closed: [propext, Classical.choice, Quot.sound]
AMPE.Quat.Props.c14_angle: [propext, Classical.choice, Quot.sound]
AMPE.Quat.Props.c15_distance: [propext, Classical.choice, Quot.sound]
AMPE.Quat.Props.c15_search4: [propext, Classical.choice, Quot.sound]
AMPE.Quat.Props.c15_search4_finds: [propext, Classical.choice, Quot.sound]
AMPE.Quat.Props.c15_search2: [propext, Classical.choice, Quot.sound]
AMPE.Quat.Props.c15_search1: [propext, Classical.choice, Quot.sound]
AMPE.Quat.Props.c15_misorientation: [propext, Classical.choice, Quot.sound]
AMPE.Quat.Props.c15_misorientation_sharp: [propext, Classical.choice, Quot.sound]
AMPE.Quat.Props.c15_nearest4: [propext, Classical.choice, Quot.sound]
AMPE.Quat.Props.c15_nearest_equivalent: [propext, Classical.choice, Quot.sound]
AMPE.Quat.Props.c15_distance_invariant: [propext, Classical.choice, Quot.sound]
AMPE.Quat.Props.c15_nearest2: [propext, Classical.choice, Quot.sound]
AMPE.Quat.Props.c15_nearest1: [propext, Classical.choice, Quot.sound]
AMPE.Quat.Props.c16_rotation: [propext, Classical.choice, Quot.sound]
AMPE.Quat.Props.c16_rotation_unit: [propext, Classical.choice, Quot.sound]
AMPE.Quat.Props.c16_opposite: [propext, Classical.choice, Quot.sound]
AMPE.Quat.Props.c16_multiplicative: [propext, Classical.choice, Quot.sound]
AMPE.Quat.Props.c16_sandwich: [propext, Classical.choice, Quot.sound]
AMPE.Quat.Props.c16_derivative_partial: [propext, Classical.choice, Quot.sound]
AMPE.Quat.Props.c16_violation_derivative: [propext, Classical.choice, Quot.sound]
AMPE.Quat.Props.c16_violation_derivative_sign: [propext, Classical.choice, Quot.sound]
AMPE.Quat.Props.c16_tensor_symmetric: [propext, Classical.choice, Quot.sound]
AMPE.Quat.Props.c16_tensor_cubic: [propext, Classical.choice, Quot.sound]
AMPE.Quat.Props.c16_plane_rotation: [propext, Classical.choice, Quot.sound]
AMPE.Quat.Props.c16_plane_matches_quaternion: [propext, Classical.choice, Quot.sound]
AMPE.QuatTransfer.Props.c17_coarsen_2d: [propext, Classical.choice, Quot.sound]
AMPE.QuatTransfer.Props.c17_coarsen_3d: [propext, Classical.choice, Quot.sound]
AMPE.QuatTransfer.Props.c17_coarsen_uniform: [propext, Classical.choice, Quot.sound]
AMPE.QuatTransfer.Props.c17_coarsen_half_space: [propext, Classical.choice, Quot.sound]
AMPE.QuatTransfer.Props.c17_violation_coarsen_2d: [propext, Classical.choice, Quot.sound]
AMPE.QuatTransfer.Props.c17_violation_refine_2d: [propext, Classical.choice, Quot.sound]
AMPE.QuatTransfer.Props.c17_refine_partial: [propext, Classical.choice, Quot.sound]
AMPE.Regrid.Props.c17_violation_linear_refine: [propext, Classical.choice, Quot.sound]
AMPE.Regrid.Props.c17_violation_shorter: [propext, Classical.choice, Quot.sound]
AMPE.QuatTransfer.Props.c18_floor: [propext, Classical.choice, Quot.sound]
AMPE.QuatTransfer.Props.c18_weights: [propext, Classical.choice, Quot.sound]
AMPE.QuatTransfer.Props.c18_violation_ratio: [propext, Classical.choice, Quot.sound]
AMPE.QuatTransfer.Props.c18_bilinear: [propext, Classical.choice, Quot.sound]
AMPE.QuatTransfer.Props.c18_bilinear_affine: [propext, Classical.choice, Quot.sound]
AMPE.QuatTransfer.Props.c18_trilinear: [propext, Classical.choice, Quot.sound]
AMPE.QuatTransfer.Props.c18_trilinear_affine: [propext, Classical.choice, Quot.sound]
AMPE.Grains.Props.c19_labels: [propext, Classical.choice, Quot.sound]
AMPE.Grains.Props.c19_no_leak: [propext, Classical.choice, Quot.sound]
AMPE.Grains.Props.c19_terminates: [propext, Classical.choice, Quot.sound]
AMPE.Grains.Props.c19_count: [propext, Quot.sound]
AMPE.Grains.Props.c19_violation_winding: [propext, Classical.choice, Quot.sound]
AMPE.Grains.Props.c19_violation_limit: [propext, Classical.choice, Quot.sound]
AMPE.Grains.Props.c19_limit_value: [propext, Quot.sound]
AMPE.Grains.Props.c20_violation_write: [propext, Quot.sound]
AMPE.Grains.Props.c20_unique_in_level_partial: [propext, Classical.choice, Quot.sound]
AMPE.Grains.Props.c20_nonneg: [propext, Classical.choice, Quot.sound]
AMPE.Grains.Props.c20_violation_levels: [propext, Quot.sound]
AMPE.Grains.Props.c21_bijection: [propext, Classical.choice, Quot.sound]
AMPE.Grains.Props.c21_distribution: [propext, Classical.choice, Quot.sound]
AMPE.Grains.Props.c21_renumber: [propext, Classical.choice, Quot.sound]
AMPE.Grains.Props.c22_table: [propext, Classical.choice, Quot.sound]
AMPE.Grains.Props.c22_total_volume: [propext, Classical.choice, Quot.sound]
AMPE.Grains.Props.c22_average: [propext, Classical.choice, Quot.sound]
AMPE.Grains.Props.c22_average_bounds: [propext, Classical.choice, Quot.sound]
AMPE.Grains.Props.c22_deviation: [propext, Classical.choice, Quot.sound]
AMPE.Grains.Props.c23_pass: [propext, Quot.sound]
AMPE.Grains.Props.c23_nearest: [propext, Quot.sound]
AMPE.Grains.Props.c23_stop_partial: [propext, Classical.choice, Quot.sound]
AMPE.Grains.Props.c23_violation_last_patch: [propext, Quot.sound]
AMPE.Grains.Props.c23_violation_two_patches: [propext]
AMPE.Grains.Props.c23_violation_empty_rank: [propext, Quot.sound]
AMPE.Grains.Props.c23_violation_limit: [propext]
AMPE.Tools.Props.c24_min: [propext, Classical.choice, Quot.sound]
AMPE.Tools.Props.c24_order_independent: [propext, Classical.choice, Quot.sound]
AMPE.Tools.Props.c25_gather: [propext, Classical.choice, Quot.sound]
AMPE.Tools.Props.c25_all_written: [propext, Quot.sound]
AMPE.Tools.Props.c25_gather_wrong_size: [propext, Quot.sound]
AMPE.Tools.Props.c25_list_local_to_global: [propext, Classical.choice, Quot.sound]
AMPE.InputEcho.Props.c26_paths_partial: [propext, Classical.choice, Quot.sound]
AMPE.InputEcho.Props.c26_kept: [propext, Classical.choice, Quot.sound]
AMPE.InputEcho.Props.c26_violation_dropped: [propext, Classical.choice, Quot.sound]
AMPE.InputEcho.Props.c26_violation_boolean: [propext, Classical.choice, Quot.sound]
AMPE.InputEcho.Props.c26_double_error: [propext, Classical.choice, Quot.sound]
AMPE.InputEcho.Props.c26_violation_double: [propext, Classical.choice, Quot.sound]
AMPE.InputEcho.Props.c26_copy_db: [propext, Classical.choice, Quot.sound]
AMPE.Coefficients.Props.c27_binary: [propext, Classical.choice, Quot.sound]
AMPE.Coefficients.Props.c27_ternary_matrix: [propext, Classical.choice, Quot.sound]
AMPE.Coefficients.Props.c27_ternary_psd: [propext, Classical.choice, Quot.sound]
AMPE.Coefficients.Props.c27_ternary_pd: [propext, Classical.choice, Quot.sound]
AMPE.Coefficients.Props.c27_ternary_reduces: [propext, Classical.choice, Quot.sound]
AMPE.Coefficients.Props.c27_ternary_expansion: [propext, Classical.choice, Quot.sound]
AMPE.Coefficients.Props.c27_binary_lattice: [propext, Classical.choice, Quot.sound]
AMPE.Coefficients.Props.c27_arrhenius: [propext, Classical.choice, Quot.sound]
AMPE.Coefficients.Props.c27_mixture: [propext, Classical.choice, Quot.sound]
AMPE.Coefficients.Props.c27_read: [propext, Classical.choice, Quot.sound]
AMPE.Coefficients.Props.c27_violation_fourth: [propext, Classical.choice, Quot.sound]
AMPE.Coefficients.Props.c27_violation_gap: [propext, Classical.choice, Quot.sound]
AMPE.Coefficients.Props.c28_rest: [propext, Classical.choice, Quot.sound]
AMPE.Coefficients.Props.c28_equilibrium: [propext, Classical.choice, Quot.sound]
AMPE.Coefficients.Props.c28_bounds: [propext, Classical.choice, Quot.sound]
AMPE.Coefficients.Props.c28_monotone: [propext, Classical.choice, Quot.sound]
AMPE.Coefficients.Props.c28_reciprocal: [propext, Classical.choice, Quot.sound]
AMPE.Coefficients.Props.c28_limit: [propext, Classical.choice, Quot.sound]
AMPE.Coefficients.Props.c28_at_most_one: [propext, Classical.choice, Quot.sound]
AMPE.Coefficients.Props.c29_split: [propext, Classical.choice, Quot.sound]
AMPE.Coefficients.Props.c29_order: [propext, Classical.choice, Quot.sound]
AMPE.Coefficients.Props.c29_violation_zero: [propext, Classical.choice, Quot.sound]
AMPE.Coefficients.Props.c30_ramp: [propext, Classical.choice, Quot.sound]
AMPE.Coefficients.Props.c30_monotone: [propext, Classical.choice, Quot.sound]
AMPE.Coefficients.Props.c30_field: [propext, Classical.choice, Quot.sound]
AMPE.Coefficients.Props.c30_violation_target: [propext, Classical.choice, Quot.sound]
AMPE.Coefficients.Props.c30_violation_constant: [propext, Classical.choice, Quot.sound]
AMPE.Flux.Props.c31_block_2d: [propext, Classical.choice, Quot.sound]
AMPE.Flux.Props.c31_block_3d: [propext, Classical.choice, Quot.sound]
AMPE.Flux.Props.c31_conserved_2d: [propext, Classical.choice, Quot.sound]
AMPE.Flux.Props.c31_conserved_3d: [propext, Classical.choice, Quot.sound]
AMPE.Flux.Props.c31_periodic_contributions: [propext, Classical.choice, Quot.sound]
AMPE.Flux.Props.c31_mirror_zero: [propext, Classical.choice, Quot.sound]
AMPE.Flux.Props.c31_periodic_contributions_y: [propext, Classical.choice, Quot.sound]
AMPE.Flux.Props.c31_mirror_zero_y: [propext, Classical.choice, Quot.sound]
AMPE.Flux.Props.c31_mirror_zero_upper: [propext, Classical.choice, Quot.sound]
AMPE.Flux.Props.c31_linear_profiles: [propext, Classical.choice, Quot.sound]
AMPE.Flux.Props.c31_composite: [propext, Classical.choice, Quot.sound]
AMPE.Flux.Props.c31_violation_spinodal_3d: [propext, Classical.choice, Quot.sound]
AMPE.Flux.Props.c31_violation_spinodal_shared_face: [propext, Classical.choice, Quot.sound]
AMPE.Flux.Props.c31_spinodal_2d_periodic: [propext, Classical.choice, Quot.sound]
AMPE.Flux.Props.c31_spinodal_axes: [propext, Classical.choice, Quot.sound]
AMPE.Flux.Props.c31_spinodal_mirror: [propext, Classical.choice, Quot.sound]
AMPE.Flux.Props.c32_slot: [propext, Classical.choice, Quot.sound]
AMPE.Flux.Props.c32_uniform: [propext, Classical.choice, Quot.sound]
AMPE.Flux.Props.c32_linear: [propext, Classical.choice, Quot.sound]
AMPE.Flux.Props.c32_downhill: [propext, Classical.choice, Quot.sound]
AMPE.Flux.Props.c32_exact_quadratic: [propext, Classical.choice, Quot.sound]
AMPE.Flux.Props.c32_exact_quartic_averages: [propext, Classical.choice, Quot.sound]
AMPE.Flux.Props.c32_quartic_spec: [propext, Classical.choice, Quot.sound]
AMPE.Flux.Props.c32_point_values: [propext, Classical.choice, Quot.sound]
AMPE.Flux.Props.c32_boundary: [propext, Classical.choice, Quot.sound]
AMPE.Flux.Props.c32_axes_3d: [propext, Classical.choice, Quot.sound]
AMPE.Flux.Props.c32_transverse_3d: [propext, Classical.choice, Quot.sound]
AMPE.Flux.Props.c32_exact_quadratic_3d: [propext, Classical.choice, Quot.sound]
AMPE.PhaseRHS.Props.c33_gradient_2d: [propext, Classical.choice, Quot.sound]
AMPE.PhaseRHS.Props.c33_gradient_3d: [propext, Classical.choice, Quot.sound]
AMPE.PhaseRHS.Props.c33_partial_derivative: [propext, Classical.choice, Quot.sound]
AMPE.PhaseRHS.Props.c33_energy_decay_2d: [propext, Classical.choice, Quot.sound]
AMPE.PhaseRHS.Props.c33_violation_isotropic: [propext, Classical.choice, Quot.sound]
AMPE.PhaseRHS.Props.c34_rate_sum_zero: [propext, Classical.choice, Quot.sound]
AMPE.PhaseRHS.Props.c34_driving_sum_zero: [propext, Classical.choice, Quot.sound]
AMPE.PhaseRHS.Props.c34_fraction_kept: [propext, Classical.choice, Quot.sound]
AMPE.PhaseRHS.Props.c34_project_lands: [propext, Classical.choice, Quot.sound]
AMPE.PhaseRHS.Props.c34_project_fixed: [propext, Classical.choice, Quot.sound]
AMPE.PhaseRHS.Props.c34_project_nearest: [propext, Classical.choice, Quot.sound]
AMPE.PhaseRHS.Props.c34_error_tangent: [propext, Classical.choice, Quot.sound]
AMPE.PhaseRHS.Props.c34_energy_decay: [propext, Classical.choice, Quot.sound]
AMPE.PhaseRHS.Props.c35_violation_extra_force: [propext, Classical.choice, Quot.sound]
AMPE.PhaseRHS.Props.c35_violation_iff: [propext, Classical.choice, Quot.sound]
AMPE.PhaseRHS.Props.c35_force_partial: [propext, Classical.choice, Quot.sound]
AMPE.PhaseRHS.Props.c35_actual_potential: [propext, Classical.choice, Quot.sound]
AMPE.PhaseRHS.Props.c35_pure_grain_stationary: [propext, Classical.choice, Quot.sound]
AMPE.PhaseRHS.Props.c36_fractions: [propext, Classical.choice, Quot.sound]
AMPE.PhaseRHS.Props.c36_two_phase: [propext, Classical.choice, Quot.sound]
AMPE.PhaseRHS.Props.c36_three_phase: [propext, Classical.choice, Quot.sound]
AMPE.RigidBody.Props.c37_wang_value: [propext, Classical.choice, Quot.sound]
AMPE.RigidBody.Props.c37_action_reaction: [propext, Classical.choice, Quot.sound]
AMPE.RigidBody.Props.c37_total: [propext, Classical.choice, Quot.sound]
AMPE.RigidBody.Props.c37_density_support: [propext, Classical.choice, Quot.sound]
AMPE.RigidBody.Props.c37_density_factor: [propext, Classical.choice, Quot.sound]
AMPE.RigidBody.Props.c37_density_support_3d: [propext, Classical.choice, Quot.sound]
AMPE.RigidBody.Props.c37_density_factor_3d: [propext, Classical.choice, Quot.sound]
AMPE.RigidBody.Props.c37_violation_phiphi_2d: [propext, Classical.choice, Quot.sound]
AMPE.RigidBody.Props.c37_violation_phiphi_3d: [propext, Classical.choice, Quot.sound]
AMPE.RigidBody.Props.c37_violation_second_phase: [propext, Classical.choice, Quot.sound]
AMPE.RigidBody.Props.c38_violation_last_patch: [propext, Classical.choice, Quot.sound]
AMPE.RigidBody.Props.c38_violation_lost: [propext, Classical.choice, Quot.sound]
AMPE.RigidBody.Props.c38_violation_underestimates: [propext, Classical.choice, Quot.sound]
AMPE.RigidBody.Props.c38_one_patch_partial: [propext, Classical.choice, Quot.sound]
AMPE.RigidBody.Props.c38_symmetric: [propext, Classical.choice, Quot.sound]
AMPE.RigidBody.Props.c38_violation_density: [propext, Classical.choice, Quot.sound]
AMPE.Weights.Props.c39_integral: [propext, Classical.choice, Quot.sound]
AMPE.Weights.Props.c39_total: [propext, Classical.choice, Quot.sound]
AMPE.Weights.Props.c39_each_cell_once: [propext, Classical.choice, Quot.sound]
AMPE.Weights.Props.c39_violation_diagnostics: [propext, Classical.choice, Quot.sound]
AMPE.Weights.Props.c39_violation_overcount: [propext, Classical.choice, Quot.sound]
AMPE.Weights.Props.c39_violation_subdomain: [propext, Classical.choice, Quot.sound]
AMPE.Weights.Props.c39_subdomain_bounds: [propext, Classical.choice, Quot.sound]
AMPE.Tagging.Props.c40_tagged_iff_partial: [propext, Classical.choice, Quot.sound]
AMPE.Tagging.Props.c40_no_criteria: [propext, Classical.choice, Quot.sound]
AMPE.Tagging.Props.c40_uniform_untagged: [propext, Classical.choice, Quot.sound]
AMPE.Tagging.Props.c40_violation_threshold_tagged_ignored: [propext, Classical.choice, Quot.sound]
AMPE.Tagging.Props.c40_violation_other_order_parameters: [propext, Classical.choice, Quot.sound]
AMPE.Tagging.Props.c40_violation_interface_missed: [propext, Classical.choice, Quot.sound]
AMPE.Tagging.Props.c40_tagged_iff_3d: [propext, Classical.choice, Quot.sound]
AMPE.OrientSolve.Props.c41_bounds_poly: [propext, Classical.choice, Quot.sound]
AMPE.OrientSolve.Props.c41_bounds_exp: [propext, Classical.choice, Quot.sound]
AMPE.OrientSolve.Props.c41_bounds_inverse: [propext, Classical.choice, Quot.sound]
AMPE.OrientSolve.Props.c41_end_values: [propext, Classical.choice, Quot.sound]
AMPE.OrientSolve.Props.c41_unknown_kind: [propext, Classical.choice, Quot.sound]
AMPE.OrientSolve.Props.c41_deriv_poly: [propext, Classical.choice, Quot.sound]
AMPE.OrientSolve.Props.c41_deriv_exp_partial: [propext, Classical.choice, Quot.sound]
AMPE.OrientSolve.Props.c41_deriv_inverse_partial: [propext, Classical.choice, Quot.sound]
AMPE.OrientSolve.Props.c41_violation_exp_outside: [propext, Classical.choice, Quot.sound]
AMPE.OrientSolve.Props.c41_violation_inverse_capped: [propext, Classical.choice, Quot.sound]
AMPE.OrientSolve.Props.c42_correction_tangent: [propext, Classical.choice, Quot.sound]
AMPE.OrientSolve.Props.c42_correction_zero: [propext, Classical.choice, Quot.sound]
AMPE.OrientSolve.Props.c42_multiplier_tangent: [propext, Classical.choice, Quot.sound]
AMPE.OrientSolve.Props.c42_projection: [propext, Classical.choice, Quot.sound]
AMPE.OrientSolve.Props.c42_projection_fixes: [propext, Classical.choice, Quot.sound]
AMPE.OrientSolve.Props.c42_projection_defined_iff: [propext, Classical.choice, Quot.sound]
AMPE.Smoother.Props.c43_colour2: [propext, Classical.choice, Quot.sound]
AMPE.Smoother.Props.c43_colour3: [propext, Classical.choice, Quot.sound]
AMPE.Smoother.Props.c43_once2: [propext, Classical.choice, Quot.sound]
AMPE.Smoother.Props.c43_violation_negative_rows: [propext, Classical.choice, Quot.sound]
AMPE.Smoother.Props.c43_once3_partial: [propext, Classical.choice, Quot.sound]
AMPE.Smoother.Props.c43_violation_negative_rows3: [propext, Classical.choice, Quot.sound]
AMPE.Smoother.Props.c43_independent2: [propext, Classical.choice, Quot.sound]
AMPE.Smoother.Props.c43_independent3: [propext, Classical.choice, Quot.sound]
AMPE.Smoother.Props.c43_violation_across_patches: [propext, Classical.choice, Quot.sound]
AMPE.Smoother.Props.c43_maxres: [propext, Classical.choice, Quot.sound]
AMPE.Smoother.Props.c43_untouched: [propext, Classical.choice, Quot.sound]
AMPE.Smoother.Props.c43_fixed_point: [propext, Classical.choice, Quot.sound]
AMPE.Smoother.Props.c43_residual_zero_partial: [propext, Classical.choice, Quot.sound]
AMPE.Smoother.Props.c43_fixed_point3: [propext, Classical.choice, Quot.sound]
AMPE.Smoother.Props.c43_residual_zero3_partial: [propext, Classical.choice, Quot.sound]
AMPE.BcTable.Props.c44_values: [propext, Classical.choice, Quot.sound]
AMPE.BcTable.Props.c44_error: [propext, Classical.choice, Quot.sound]
AMPE.BcTable.Props.c44_violation_undefined: [propext, Classical.choice, Quot.sound]
AMPE.BcTable.Props.c44_violation_single: [propext, Classical.choice, Quot.sound]
AMPE.BcTable.Props.c44_history_partial: [propext, Classical.choice, Quot.sound]
AMPE.BcTable.Props.c44_forward: [propext, Classical.choice, Quot.sound]
AMPE.BcTable.Props.c44_far_back: [propext, Classical.choice, Quot.sound]
AMPE.BcTable.Props.c44_faces: [propext, Classical.choice, Quot.sound]
AMPE.BcTable.Props.c44_violation_shared: [propext, Classical.choice, Quot.sound]
AMPE.BcTable.Props.c44_read: [propext, Classical.choice, Quot.sound]
AMPE.BcTable.Props.c44_kind: [propext, Classical.choice, Quot.sound]
AMPE.BcTable.Props.c44_rescale: [propext, Classical.choice, Quot.sound]
AMPE.Coefficients.Props.c45_bounded: [propext, Classical.choice, Quot.sound]
AMPE.Coefficients.Props.c45_direction: [propext, Classical.choice, Quot.sound]
AMPE.Coefficients.Props.c45_tracks: [propext, Classical.choice, Quot.sound]
AMPE.Coefficients.Props.c45_first: [propext, Classical.choice, Quot.sound]
AMPE.Coefficients.Props.c45_violation_rest: [propext, Classical.choice, Quot.sound]
AMPE.Coefficients.Props.c45_violation_same_time: [propext, Classical.choice, Quot.sound]
AMPE.PhaseRHS.Props.c46_upwind3_cubic: [propext, Classical.choice, Quot.sound]
AMPE.PhaseRHS.Props.c46_upwind3_quartic: [propext, Classical.choice, Quot.sound]
AMPE.PhaseRHS.Props.c46_centred: [propext, Classical.choice, Quot.sound]
AMPE.PhaseRHS.Props.c46_boundary_footprint: [propext, Classical.choice, Quot.sound]
AMPE.PhaseRHS.Props.c46_conservative: [propext, Classical.choice, Quot.sound]
AMPE.PhaseRHS.Props.c46_upwind3_work: [propext, Classical.choice, Quot.sound]
AMPE.PhaseRHS.Props.c46_upwind3_damps: [propext, Classical.choice, Quot.sound]
AMPE.PhaseRHS.Props.c46_violation_downwind: [propext, Classical.choice, Quot.sound]
AMPE.Coefficients.Props.c47_single: [propext, Classical.choice, Quot.sound]
AMPE.Coefficients.Props.c47_storage_packing: [propext, Classical.choice, Quot.sound]
AMPE.Coefficients.Props.c47_storage: [propext, Classical.choice, Quot.sound]
AMPE.Coefficients.Props.c47_tensor: [propext, Classical.choice, Quot.sound]
AMPE.EventInterval.Props.c48_step_schedule_restart_transparent: [propext, Classical.choice, Quot.sound]
AMPE.EventInterval.Props.c48_time_schedule_restart_transparent: [propext, Classical.choice, Quot.sound]
AMPE.EventInterval.Props.c48_unprimed_time_schedule_not_transparent: [propext, Classical.choice, Quot.sound]
AMPE.Quat.Props.c49_max: [propext, Classical.choice, Quot.sound]
AMPE.Quat.Props.c49_sqrt: [propext, Classical.choice, Quot.sound]
AMPE.Quat.Props.c49_tanh: [propext, Classical.choice, Quot.sound]
AMPE.Quat.Props.c49_other: [propext, Classical.choice, Quot.sound]
AMPE.AntiTrap.Props.c50_plane_front: [propext, Classical.choice, Quot.sound]
AMPE.AntiTrap.Props.c50_three_phase_bounded: [propext, Classical.choice, Quot.sound]
AMPE.AntiTrap.Props.c50_three_phase_direction: [propext, Classical.choice, Quot.sound]
AMPE.Flux.Props.c50_bounded: [propext, Classical.choice, Quot.sound]
AMPE.Flux.Props.c50_multi_agrees: [propext, Classical.choice, Quot.sound]
AMPE.Flux.Props.c50_violation_three_phase_sign: [propext, Classical.choice, Quot.sound]
AMPE.Flux.Props.c50_violation_fields: [propext, Classical.choice, Quot.sound]
AMPE.Flux.Props.c50_exchange_solids: [propext, Classical.choice, Quot.sound]
AMPE.Flux.Props.c50_axes: [propext, Classical.choice, Quot.sound]
AMPE.Flux.Props.c50_mirror: [propext, Classical.choice, Quot.sound]
AMPE.Flux.Props.c51_scatter: [propext, Classical.choice, Quot.sound]
AMPE.Flux.Props.c51_footprint: [propext, Classical.choice, Quot.sound]
AMPE.Flux.Props.c51_mu_ch: [propext, Classical.choice, Quot.sound]
AMPE.Flux.Props.c51_mu_wang: [propext, Classical.choice, Quot.sound]
AMPE.Flux.Props.c52_violation_slot: [propext, Quot.sound]
AMPE.Flux.Props.c52_slot_partial: [propext, Quot.sound]
AMPE.PhaseRHS.Props.c53_partition: [propext, Classical.choice, Quot.sound]
AMPE.PhaseRHS.Props.c53_pure: [propext, Classical.choice, Quot.sound]
AMPE.PhaseRHS.Props.c53_moelans: [propext, Classical.choice, Quot.sound]
AMPE.PhaseRHS.Props.c53_folch_plapp_partial: [propext, Classical.choice, Quot.sound]
AMPE.PhaseRHS.Props.c53_violation_off_plane: [propext, Classical.choice, Quot.sound]
AMPE.PhaseRHS.Props.c53_tangential_reference: [propext, Classical.choice, Quot.sound]
AMPE.PhaseRHS.Props.c53_driving_moelans: [propext, Classical.choice, Quot.sound]
AMPE.PhaseRHS.Props.c53_driving_folch_plapp_partial: [propext, Classical.choice, Quot.sound]
AMPE.PhaseRHS.Props.c54_common_energy: [propext, Classical.choice, Quot.sound]
AMPE.PhaseRHS.Props.c54_equilibria: [propext, Classical.choice, Quot.sound]
AMPE.PhaseRHS.Props.c54_ground_state: [propext, Classical.choice, Quot.sound]
AMPE.PhaseRHS.Props.c55_bias_well: [propext, Classical.choice, Quot.sound]
AMPE.PhaseRHS.Props.c55_bulk_inactive: [propext, Classical.choice, Quot.sound]
AMPE.PhaseRHS.Props.c55_beckermann_sign: [propext, Classical.choice, Quot.sound]
AMPE.PhaseRHS.Props.c55_delta_uniform: [propext, Classical.choice, Quot.sound]
AMPE.PhaseRHS.Props.c55_delta_linear: [propext, Classical.choice, Quot.sound]
AMPE.PhaseRHS.Props.c56_true_block: [propext, Classical.choice, Quot.sound]
AMPE.PhaseRHS.Props.c56_violation: [propext, Classical.choice, Quot.sound]
AMPE.RigidBody.Props.c57_momentum: [propext, Classical.choice, Quot.sound]
AMPE.RigidBody.Props.c57_composition_follows: [propext, Classical.choice, Quot.sound]
AMPE.RigidBody.Props.c57_advects: [propext, Classical.choice, Quot.sound]
AMPE.RigidBody.Props.c57_conserves: [propext, Classical.choice, Quot.sound]
AMPE.Tagging.Props.c58_affine_exact: [propext, Classical.choice, Quot.sound]
AMPE.Tagging.Props.c58_axes_alike: [propext, Classical.choice, Quot.sound]
AMPE.Tagging.Props.c58_violation_isotropic_axes: [propext, Classical.choice, Quot.sound]
AMPE.Tagging.Props.c58_violation_isotropic_differs: [propext, Classical.choice, Quot.sound]
AMPE.Smoother.Props.c59_violation_level_residual: [propext, Classical.choice, Quot.sound]
AMPE.Smoother.Props.c59_coarsest_partial: [propext, Classical.choice, Quot.sound]
AMPE.Smoother.Props.c59_violation_converged: [propext, Classical.choice, Quot.sound]
AMPE.Smoother.Props.c59_violation_smoothing: [propext, Classical.choice, Quot.sound]
AMPE.Smoother.Props.c59_violation_level_residual3: [propext, Classical.choice, Quot.sound]
AMPE.DiffCoeff.Props.c60_turned_2d: [propext, Classical.choice, Quot.sound]
AMPE.DiffCoeff.Props.c60_turned_3d: [propext, Classical.choice, Quot.sound]
AMPE.DiffCoeff.Props.c60_mirrored: [propext, Classical.choice, Quot.sound]
AMPE.DiffCoeff.Props.c60_arrhenius: [propext, Classical.choice, Quot.sound]
AMPE.DiffCoeff.Props.c60_between: [propext, Classical.choice, Quot.sound]
AMPE.DiffCoeff.Props.c60_pure: [propext, Classical.choice, Quot.sound]
AMPE.DiffCoeff.Props.c60_scalar: [propext, Classical.choice, Quot.sound]
AMPE.DiffCoeff.Props.c60_violation_multi_y: [propext, Classical.choice, Quot.sound]
AMPE.DiffCoeff.Props.c60_violation_multi_y_linear: [propext, Classical.choice, Quot.sound]
AMPE.DiffCoeff.Props.c60_violation_multi_3d: [propext, Classical.choice, Quot.sound]
AMPE.DiffCoeff.Props.c60_multi_y_partial: [propext, Classical.choice, Quot.sound]
AMPE.DiffCoeff.Props.c60_violation_three_z: [propext, Classical.choice, Quot.sound]
AMPE.DiffCoeff.Props.c60_three_z_partial: [propext, Classical.choice, Quot.sound]
AMPE.DiffCoeff.Props.c60_beckermann_between: [propext, Classical.choice, Quot.sound]
AMPE.DiffCoeff.Props.c60_violation_beckermann: [propext, Classical.choice, Quot.sound]
AMPE.DiffCoeff.Props.c61_pairs: [propext, Classical.choice, Quot.sound]
AMPE.DiffCoeff.Props.c61_pair_bound: [propext, Classical.choice, Quot.sound]
AMPE.DiffCoeff.Props.c61_single_bound: [propext, Classical.choice, Quot.sound]
AMPE.DiffCoeff.Props.c61_both_sides: [propext, Classical.choice, Quot.sound]
AMPE.DiffCoeff.Props.c61_local: [propext, Classical.choice, Quot.sound]
AMPE.DiffCoeff.Props.c61_interior_partial: [propext, Classical.choice, Quot.sound]
AMPE.DiffCoeff.Props.c61_violation_shared_face: [propext, Classical.choice, Quot.sound]
AMPE.DiffCoeff.Props.c61_violation_mass: [propext, Classical.choice, Quot.sound]
AMPE.DiffCoeff.Props.c62_two_phase: [propext, Classical.choice, Quot.sound]
AMPE.DiffCoeff.Props.c62_two_phase_storage: [propext, Classical.choice, Quot.sound]
AMPE.DiffCoeff.Props.c62_multi_partial: []
AMPE.DiffCoeff.Props.c62_violation_iso: [propext, Classical.choice, Quot.sound]
AMPE.DiffCoeff.Props.c62_scalar_storage_partial: [propext, Classical.choice, Quot.sound]
AMPE.DiffCoeff.Props.c62_violation_scalar_storage: [propext, Classical.choice, Quot.sound]
AMPE.MobDiff.Props.c62_mobility_partial: []
AMPE.MobDiff.Props.c62_violation_mobility: [propext, Classical.choice, Quot.sound]
AMPE.Anisotropy.Props.c63_flux_is_gradient_2d: [propext, Classical.choice, Quot.sound]
AMPE.Anisotropy.Props.c63_polar_2d: [propext, Classical.choice, Quot.sound]
AMPE.Anisotropy.Props.c63_dissipative_2d: [propext, Classical.choice, Quot.sound]
AMPE.Anisotropy.Props.c63_isotropic_2d: [propext, Classical.choice, Quot.sound]
AMPE.Anisotropy.Props.c63_grid_2d: [propext, Classical.choice, Quot.sound]
AMPE.Anisotropy.Props.c63_face_orientation_2d: [propext, Classical.choice, Quot.sound]
AMPE.Anisotropy.Props.c63_flux_is_gradient_3d: [propext, Classical.choice, Quot.sound]
AMPE.Anisotropy.Props.c63_dissipative_3d: [propext, Classical.choice, Quot.sound]
AMPE.Anisotropy.Props.c63_violation_shortened_3d: [propext, Classical.choice, Quot.sound]
AMPE.Anisotropy.Props.c63_violation_grain_boundary_3d: [propext, Classical.choice, Quot.sound]
AMPE.Anisotropy.Props.c64_turned_2d_partial: [propext, Classical.choice, Quot.sound]
AMPE.Anisotropy.Props.c64_violation_clockwise_2d: [propext, Classical.choice, Quot.sound]
AMPE.Anisotropy.Props.c64_violation_opposite_2d: [propext, Classical.choice, Quot.sound]
AMPE.Anisotropy.Props.c64_violation_angle_2d: [propext, Classical.choice, Quot.sound]
AMPE.Anisotropy.Props.c64_sample_turned_3d: [propext, Classical.choice, Quot.sound]
AMPE.Anisotropy.Props.c64_violation_symmetry_3d: [propext, Classical.choice, Quot.sound]
AMPE.Anisotropy.Props.c64_symmetry_conj_partial: [propext, Classical.choice, Quot.sound]
AMPE.Anisotropy.Props.c64_violation_symmetry_witness: [propext, Classical.choice, Quot.sound]
AMPE.EnergyReport.Props.c65_total: [propext, Classical.choice, Quot.sound]
AMPE.EnergyReport.Props.c65_orient_2d: [propext, Classical.choice, Quot.sound]
AMPE.EnergyReport.Props.c65_violation_2d: [propext, Classical.choice, Quot.sound]
AMPE.EnergyReport.Props.c65_violation_3d: [propext, Classical.choice, Quot.sound]
AMPE.EnergyReport.Props.c65_total_distribution: [propext, Classical.choice, Quot.sound]
AMPE.EnergyReport.Props.c65_total_cut: [propext, Classical.choice, Quot.sound]
AMPE.EnergyReport.Props.c65_violation_cut: [propext, Classical.choice, Quot.sound]
AMPE.EnergyReport.Props.c65_one_patch_partial: [propext, Classical.choice, Quot.sound]
AMPE.EnergyReport.Props.c66_density: [propext, Classical.choice, Quot.sound]
AMPE.EnergyReport.Props.c66_off: [propext, Classical.choice, Quot.sound]
AMPE.EnergyReport.Props.c66_violation_rigid_body: [propext, Classical.choice, Quot.sound]
AMPE.EnergyReport.Props.c66_orient_2d: [propext, Classical.choice, Quot.sound]
AMPE.EnergyReport.Props.c66_orient_3d_partial: [propext, Classical.choice, Quot.sound]
AMPE.EnergyReport.Props.c66_violation_value_3d: [propext, Classical.choice, Quot.sound]
AMPE.EnergyReport.Props.c66_violation_floor_3d: [propext, Classical.choice, Quot.sound]
AMPE.Thermal.Props.c67_energy_balance: [propext, Classical.choice, Quot.sound]
AMPE.Thermal.Props.c67_violation_variable_cp: [propext, Classical.choice, Quot.sound]
AMPE.Thermal.Props.c67_energy_balance_3d: [propext, Classical.choice, Quot.sound]
AMPE.Thermal.Props.c67_maximum_principle: [propext, Classical.choice, Quot.sound]
AMPE.Thermal.Props.c67_latent_heat: [propext, Classical.choice, Quot.sound]
AMPE.Thermal.Props.c68_mixture: [propext, Classical.choice, Quot.sound]
AMPE.Thermal.Props.c68_positive: [propext, Classical.choice, Quot.sound]
AMPE.Thermal.Props.c68_rescale_partial: [propext, Classical.choice, Quot.sound]
AMPE.Thermal.Props.c68_violation_rescale: [propext, Classical.choice, Quot.sound]
AMPE.Thermal.Props.c68_violation_constant: [propext, Classical.choice, Quot.sound]
AMPE.Thermal.Props.c68_constant_partial: [propext, Classical.choice, Quot.sound]
AMPE.Thermal.Props.c68_violation_regrid: [propext, Classical.choice, Quot.sound]
AMPE.Thermal.Props.c69_min_image: [propext, Classical.choice, Quot.sound]
AMPE.Thermal.Props.c69_periodic: [propext, Classical.choice, Quot.sound]
AMPE.Thermal.Props.c69_nonperiodic: [propext, Classical.choice, Quot.sound]
AMPE.Thermal.Props.c69_center: [propext, Classical.choice, Quot.sound]
AMPE.Thermal.Props.c69_bounds: [propext, Classical.choice, Quot.sound]
AMPE.Thermal.Props.c69_bounds_3d: [propext, Classical.choice, Quot.sound]
AMPE.Thermal.Props.c69_width: [propext, Classical.choice, Quot.sound]
AMPE.Thermal.Props.c69_patch_independent: [propext, Classical.choice, Quot.sound]
AMPE.Thermal.Props.c69_peak: [propext, Classical.choice, Quot.sound]
AMPE.Thermal.Props.c69_peak_cooling: [propext, Classical.choice, Quot.sound]
AMPE.Thermal.Props.c69_follows_partial: [propext, Classical.choice, Quot.sound]
AMPE.Thermal.Props.c69_violation_constant_peak: [propext, Classical.choice, Quot.sound]
AMPE.Thermal.Props.c70_lab_frame: [propext, Classical.choice, Quot.sound]
AMPE.Thermal.Props.c70_continuous: [propext, Classical.choice, Quot.sound]
AMPE.Thermal.Props.c70_gradient: [propext, Classical.choice, Quot.sound]
AMPE.Thermal.Props.c70_violation_restart: [propext, Classical.choice, Quot.sound]
AMPE.Thermal.Props.c70_restart_partial: [propext, Classical.choice, Quot.sound]
AMPE.Thermal.Props.c71_mixture: [propext, Classical.choice, Quot.sound]
AMPE.Thermal.Props.c71_pulse: [propext, Classical.choice, Quot.sound]
AMPE.Thermal.Props.c71_scaling: [propext, Classical.choice, Quot.sound]
AMPE.Alloy.Props.c72_driving_is_derivative_partial: [propext, Classical.choice, Quot.sound]
AMPE.Alloy.Props.c72_mismatch: [propext, Classical.choice, Quot.sound]
AMPE.Alloy.Props.c72_violation_two_interpolations: [propext, Classical.choice, Quot.sound]
AMPE.Alloy.Props.c72_two_volumes: [propext, Classical.choice, Quot.sound]
AMPE.Alloy.Props.c72_reference_state: [propext, Classical.choice, Quot.sound]
AMPE.Alloy.Props.c72_ternary_partial: [propext, Classical.choice, Quot.sound]
AMPE.Alloy.Props.c72_multi_order: [propext, Classical.choice, Quot.sound]
AMPE.Alloy.Props.c72_violation_multi_fraction: [propext, Classical.choice, Quot.sound]
AMPE.Alloy.Props.c72_violation_multi_rate: [propext, Classical.choice, Quot.sound]
AMPE.AlloyThree.Props.c72_three_phase_deviation: [propext, Classical.choice, Quot.sound]
AMPE.AlloyThree.Props.c72_three_phase_ternary: [propext, Classical.choice, Quot.sound]
AMPE.AlloyThree.Props.c72_three_phase_binary: [propext, Classical.choice, Quot.sound]
AMPE.AlloyThree.Props.c72_violation_three_phase_volumes: [propext, Classical.choice, Quot.sound]
AMPE.Alloy.Props.c73_front_velocity_partial: [propext, Classical.choice, Quot.sound]
AMPE.Alloy.Props.c73_front_shape: [propext, Classical.choice, Quot.sound]
AMPE.Alloy.Props.c73_velocity_identity: [propext, Classical.choice, Quot.sound]
AMPE.Alloy.Props.c73_equilibrium_profile: [propext, Classical.choice, Quot.sound]
AMPE.Alloy.Props.c74_finite_pos: [propext, Classical.choice, Quot.sound]
AMPE.Alloy.Props.c74_zeta: [propext, Classical.choice, Quot.sound]
AMPE.Alloy.Props.c74_stride_limit: [propext, Classical.choice, Quot.sound]
AMPE.Alloy.Props.c74_anti_trap: [propext, Classical.choice, Quot.sound]
AMPE.Alloy.Props.c74_zeta_pos: [propext, Classical.choice, Quot.sound]
AMPE.Alloy.Props.c74_violation_negative_polynomial: [propext, Classical.choice, Quot.sound]
AMPE.Alloy.Props.c74_three_phases: [propext, Classical.choice, Quot.sound]
AMPE.Alloy.Props.c74_factor_pbg_partial: [propext, Classical.choice, Quot.sound]
AMPE.Alloy.Props.c74_violation_factor_harmonic: [propext, Classical.choice, Quot.sound]
AMPE.Alloy.Props.c75_update_cells: [propext, Quot.sound]
AMPE.Alloy.Props.c75_update_count: [propext, Quot.sound]
AMPE.Alloy.Props.c75_phi_cell: [propext, Quot.sound]
AMPE.QuatFlow.Props.c76_rate_covariant4: [propext, Classical.choice, Quot.sound]
AMPE.QuatFlow.Props.c76_rate_covariant2: [propext, Classical.choice, Quot.sound]
AMPE.QuatFlow.Props.c76_single_crystal4: [propext, Classical.choice, Quot.sound]
AMPE.QuatFlow.Props.c76_single_crystal2: [propext, Classical.choice, Quot.sound]
AMPE.QuatFlow.Props.c76_violation_default4: [propext, Classical.choice, Quot.sound]
AMPE.QuatFlow.Props.c76_violation_default2: [propext, Classical.choice, Quot.sound]
AMPE.QuatFlow.Props.c76_violation_default1: [propext, Classical.choice, Quot.sound]
AMPE.QuatFlow.Props.c76_default_agrees_partial: [propext, Classical.choice, Quot.sound]
AMPE.QuatFlow.Props.c76_violation_single_crystal4: [propext, Classical.choice, Quot.sound]
AMPE.QuatFlow.Props.c76_violation_spontaneous4: [propext, Classical.choice, Quot.sound]
AMPE.QuatFlow.Props.c76_violation_isotropic_angle: [propext, Classical.choice, Quot.sound]
AMPE.QuatFlow.Props.c76_violation_isotropic_angle_y: [propext, Classical.choice, Quot.sound]
AMPE.QuatFlow.Props.c76_search_copy: [propext, Classical.choice, Quot.sound]
AMPE.QuatFlow.Props.c76_unique_below_45: [propext, Classical.choice, Quot.sound]
AMPE.QuatFlow.Props.c76_unique_below_45_plane: [propext, Classical.choice, Quot.sound]
AMPE.QuatFlow.Props.c77_dissipates4: [propext, Classical.choice, Quot.sound]
AMPE.QuatFlow.Props.c77_dissipates2: [propext, Classical.choice, Quot.sound]
AMPE.QuatFlow.Props.c77_dissipates_plain: [propext, Classical.choice, Quot.sound]
AMPE.QuatFlow.Props.c77_dissipates_angle: [propext, Classical.choice, Quot.sound]
AMPE.QuatFlow.Props.c77_coef_sign: [propext, Classical.choice, Quot.sound]
AMPE.QuatFlow.Props.c77_energy_nonneg: [propext, Classical.choice, Quot.sound]
AMPE.QuatFlow.Props.c77_speed: [propext, Classical.choice, Quot.sound]
AMPE.LevelSolve.Props.c78_violation_boundary_mobility: [propext, Classical.choice, Quot.sound]
AMPE.LevelSolve.Props.c78_exact_partial: [propext, Classical.choice, Quot.sound]
AMPE.LevelSolve.Props.c78_exact_const: [propext, Classical.choice, Quot.sound]
AMPE.LevelSolve.Props.c78_positive: [propext, Classical.choice, Quot.sound]
AMPE.LevelSolve.Props.c78_solvable: [propext, Classical.choice, Quot.sound]
AMPE.LevelSolve.Props.c78_violation_dirichlet: [propext, Classical.choice, Quot.sound]
AMPE.LevelSolve.Props.c79_violation_boundary_mobility: [propext, Classical.choice, Quot.sound]
AMPE.LevelSolve.Props.c79_exact_partial: [propext, Classical.choice, Quot.sound]
AMPE.LevelSolve.Props.c79_coarse_fine: [propext, Classical.choice, Quot.sound]
AMPE.LevelSolve.Props.c79_positive: [propext, Classical.choice, Quot.sound]
AMPE.LevelSolve.Props.c79_solvable: [propext, Classical.choice, Quot.sound]
AMPE.LevelSolve.Props.c79_symmetric: [propext, Classical.choice, Quot.sound]
AMPE.LevelSolve.Props.c79_zero_correction: [propext, Classical.choice, Quot.sound]
AMPE.LevelSolve.Props.c79_homogeneous: [propext, Classical.choice, Quot.sound]
AMPE.LevelSolve.Props.c79_data_must_vanish: [propext, Classical.choice, Quot.sound]
AMPE.Precond.Props.c80_phase: [propext, Classical.choice, Quot.sound]
AMPE.Precond.Props.c80_phase_driving_force: [propext, Classical.choice, Quot.sound]
AMPE.Precond.Props.c80_violation_single_well: [propext, Classical.choice, Quot.sound]
AMPE.Precond.Props.c80_coupled: [propext, Classical.choice, Quot.sound]
AMPE.Precond.Props.c80_temperature: [propext, Classical.choice, Quot.sound]
AMPE.Precond.Props.c80_violation_boundary: [propext, Classical.choice, Quot.sound]
AMPE.Precond.Props.c80_violation_fixed_temperature: [propext, Classical.choice, Quot.sound]
AMPE.Interface.Props.c81_stationary: [propext, Classical.choice, Quot.sound]
AMPE.Interface.Props.c81_stationary_three: [propext, Classical.choice, Quot.sound]
AMPE.Interface.Props.c81_violation_multi: [propext, Classical.choice, Quot.sound]
AMPE.Interface.Props.c81_sintering_potential: [propext, Classical.choice, Quot.sound]
AMPE.Interface.Props.c81_violation_sintering: [propext, Classical.choice, Quot.sound]
AMPE.Interface.Props.c81_energy_at_least: [propext, Classical.choice, Quot.sound]
AMPE.Interface.Props.c81_energy_profile: [propext, Classical.choice, Quot.sound]
AMPE.Interface.Props.c81_energy_total: [propext, Classical.choice, Quot.sound]
AMPE.Interface.Props.c81_antitrapping_width: [propext, Classical.choice, Quot.sound]
AMPE.ConservedFlow.Props.c82_ch_conserves: [propext, Classical.choice, Quot.sound]
AMPE.ConservedFlow.Props.c82_ch_dissipation: [propext, Classical.choice, Quot.sound]
AMPE.ConservedFlow.Props.c82_ch_decreases: [propext, Classical.choice, Quot.sound]
AMPE.ConservedFlow.Props.c82_ch_mobility: [propext, Classical.choice, Quot.sound]
AMPE.ConservedFlow.Props.c82_sinter_conserves: [propext, Classical.choice, Quot.sound]
AMPE.ConservedFlow.Props.c82_sinter_dissipation: [propext, Classical.choice, Quot.sound]
AMPE.ConservedFlow.Props.c82_sinter_decreases: [propext, Classical.choice, Quot.sound]
AMPE.ConservedFlow.Props.c82_violation_mobility: [propext, Classical.choice, Quot.sound]
AMPE.Regrid.Props.c83_refined_mean_2d: [propext, Classical.choice, Quot.sound]
AMPE.Regrid.Props.c83_refined_mean_3d: [propext, Classical.choice, Quot.sound]
AMPE.Regrid.Props.c83_coarsen: [propext, Classical.choice, Quot.sound]
AMPE.Regrid.Props.c83_regrid_amount_2d: [propext, Classical.choice, Quot.sound]
AMPE.Regrid.Props.c83_regrid_amount_3d: [propext, Classical.choice, Quot.sound]
AMPE.Regrid.Props.c83_derefine_2d: [propext, Classical.choice, Quot.sound]
AMPE.Regrid.Props.c83_violation_iff: [propext, Classical.choice, Quot.sound]
AMPE.Regrid.Props.c83_edges_2d: [propext, Classical.choice, Quot.sound]
AMPE.Regrid.Props.c83_flat_margin_partial: [propext, Classical.choice, Quot.sound]
AMPE.Regrid.Props.c83_affine_partial: [propext, Classical.choice, Quot.sound]
AMPE.Regrid.Props.c83_bounds_2d: [propext, Classical.choice, Quot.sound]
AMPE.Regrid.Props.c83_violation_peak: [propext, Classical.choice, Quot.sound]
AMPE.ScalarDiag.Props.c84_solid_fraction: [propext, Classical.choice, Quot.sound]
AMPE.ScalarDiag.Props.c84_violation_negative: [propext, Classical.choice, Quot.sound]
AMPE.ScalarDiag.Props.c84_violation_negative_iff: [propext, Classical.choice, Quot.sound]
AMPE.ScalarDiag.Props.c84_fractions: [propext, Classical.choice, Quot.sound]
AMPE.ScalarDiag.Props.c84_fractions_sum: [propext, Classical.choice, Quot.sound]
AMPE.ScalarDiag.Props.c84_integral_bounds: [propext, Classical.choice, Quot.sound]
AMPE.ScalarDiag.Props.c84_violation_cex: [propext, Classical.choice, Quot.sound]
AMPE.ScalarDiag.Props.c84_void_last: [propext, Quot.sound]
AMPE.ScalarDiag.Props.c84_density: [propext, Classical.choice, Quot.sound]
AMPE.ScalarDiag.Props.c84_density_bounds: [propext, Classical.choice, Quot.sound]
AMPE.ScalarDiag.Props.c84_violation_three_phases: [propext, Classical.choice, Quot.sound]
AMPE.ScalarDiag.Props.c84_violation_out_of_range: [propext, Classical.choice, Quot.sound]
AMPE.AntiTrap.Props.c85_two_phase_plane: [propext, Classical.choice, Quot.sound]
AMPE.AntiTrap.Props.c85_bounded: [propext, Classical.choice, Quot.sound]
AMPE.AntiTrap.Props.c85_violation_three_phase_sign: [propext, Classical.choice, Quot.sound]
AMPE.AntiTrap.Props.c85_three_phase_symmetric: [propext, Classical.choice, Quot.sound]
AMPE.AntiTrap.Props.c85_multi_plane: [propext, Classical.choice, Quot.sound]
AMPE.AntiTrap.Props.c85_violation_z_front: [propext, Classical.choice, Quot.sound]
AMPE.AntiTrap.Props.c85_violation_z_component: [propext, Classical.choice, Quot.sound]
AMPE.AntiTrap.Props.c85_violation_oblique: [propext, Classical.choice, Quot.sound]
AMPE.AntiTrap.Props.c85_multi_axis_partial: [propext, Classical.choice, Quot.sound]
AMPE.FieldsFile.Props.c86_write: [propext, Classical.choice, Quot.sound]
AMPE.FieldsFile.Props.c86_read_back: [propext, Classical.choice, Quot.sound]
AMPE.FieldsFile.Props.c86_roundtrip_partial: [propext, Classical.choice, Quot.sound]
AMPE.FieldsFile.Props.c86_violation_order_parameters: [propext, Classical.choice, Quot.sound]
AMPE.FieldsFile.Props.c86_violation_two_grains: [propext, Classical.choice, Quot.sound]
AMPE.FieldsFile.Props.c86_violation_reduced_temperature: [propext, Classical.choice, Quot.sound]
AMPE.FieldsFile.Props.c86_violation_slice: [propext, Classical.choice, Quot.sound]
AMPE.FieldsFile.Props.c86_wrong_size: [propext, Classical.choice, Quot.sound]
AMPE.Selection.Props.c87_split_iff: [propext, Classical.choice, Quot.sound]
AMPE.Selection.Props.c87_split_other: [propext, Classical.choice, Quot.sound]
AMPE.Selection.Props.c87_split_partial: [propext, Classical.choice, Quot.sound]
AMPE.Selection.Props.c87_violation_two_phases: [propext, Classical.choice, Quot.sound]
AMPE.Selection.Props.c87_violation_three_phases: [propext, Classical.choice, Quot.sound]
AMPE.Selection.Props.c87_violation_pure_element: [propext, Classical.choice, Quot.sound]
AMPE.Selection.Props.c87_mobility_iff: [propext, Classical.choice, Quot.sound]
AMPE.Selection.Props.c87_aziz_iff: [propext, Classical.choice, Quot.sound]
AMPE.Selection.Props.c88_diffusion_iff: [propext, Classical.choice, Quot.sound]
AMPE.Selection.Props.c88_mobility_iff: [propext, Classical.choice, Quot.sound]
AMPE.Selection.Props.c88_energy_alloy_iff: [propext, Classical.choice, Quot.sound]
AMPE.Selection.Props.c88_energy_pure_iff: [propext, Classical.choice, Quot.sound]
AMPE.Selection.Props.c88_alloy_iff: [propext, Classical.choice, Quot.sound]
AMPE.Selection.Props.c88_defaults_partial: [propext, Classical.choice, Quot.sound]
AMPE.Selection.Props.c88_violation_misspelt: [propext, Classical.choice, Quot.sound]
AMPE.Selection.Props.c88_violation_flat_liquidus: [propext, Classical.choice, Quot.sound]
AMPE.Selection.Props.c88_violation_spinodal: [propext, Classical.choice, Quot.sound]
AMPE.Selection.Props.c88_split_exists_iff: [propext]
AMPE.Selection.Props.c88_form_iff: [propext, Classical.choice, Quot.sound]
AMPE.Selection.Props.c88_mobility_type: [propext, Classical.choice, Quot.sound]
AMPE.Selection.Props.c88_kim_iff: [propext, Classical.choice, Quot.sound]
AMPE.Selection.Props.c88_assigned_iff: [propext, Classical.choice, Quot.sound]
AMPE.Selection.Props.c88_used_iff: [propext, Quot.sound]
AMPE.Selection.Props.c88_used_gradient: [propext]
AMPE.Selection.Props.c88_form_runs: [propext, Classical.choice, Quot.sound]
AMPE.MobDiff.Props.c89_product: [propext, Classical.choice, Quot.sound]
AMPE.MobDiff.Props.c89_flux: [propext, Classical.choice, Quot.sound]
AMPE.MobDiff.Props.c89_binary: [propext, Classical.choice, Quot.sound]
AMPE.MobDiff.Props.c89_commuting_partial: [propext, Classical.choice, Quot.sound]
AMPE.MobDiff.Props.c89_correct_iff: [propext, Classical.choice, Quot.sound]
AMPE.MobDiff.Props.c89_violation_ideal_iff: [propext, Classical.choice, Quot.sound]
AMPE.MobDiff.Props.c89_violation_absent_species: [propext, Classical.choice, Quot.sound]
AMPE.MobDiff.Props.c89_violation_dissipation: [propext, Classical.choice, Quot.sound]
AMPE.MobDiff.Props.c89_wanted_dissipates: [propext, Classical.choice, Quot.sound]
AMPE.MobDiff.Props.c89_layout: [propext, Classical.choice, Quot.sound]
AMPE.MobDiff.Props.c89_layout_injective: [propext, Classical.choice, Quot.sound]
AMPE.GradT.Props.c90_complete: [propext, Quot.sound]
AMPE.GradT.Props.c90_plain: [propext]
AMPE.GradT.Props.c90_antitrapping_partial: [propext, Quot.sound]
AMPE.GradT.Props.c90_violation_antitrapping: [propext]
AMPE.GradT.Props.c90_violation_thermal: [propext, Classical.choice, Quot.sound]
AMPE.GradT.Props.c90_violation_second_key: [propext, Classical.choice, Quot.sound]
AMPE.GradT.Props.c90_violation_recursion: [propext]
AMPE.GradT.Props.c90_uniform: [propext, Classical.choice, Quot.sound]
AMPE.GradT.Props.c90_pure: [propext, Classical.choice, Quot.sound]
AMPE.GradT.Props.c90_mixture: [propext, Classical.choice, Quot.sound]
AMPE.GradT.Props.c90_both: [propext]
AMPE.GradT.Props.c90_mobility: [propext, Classical.choice, Quot.sound]
AMPE.GradT.Props.c90_violation_rename_iff: [propext, Classical.choice, Quot.sound]
AMPE.GradT.Props.c90_middle_partial: [propext, Classical.choice, Quot.sound]
AMPE.GradT.Props.c90_violation_factor: [propext, Classical.choice, Quot.sound]
AMPE.PhaseSplit.Props.c91_split_two: [propext, Classical.choice, Quot.sound]
AMPE.PhaseSplit.Props.c91_split_many: [propext, Classical.choice, Quot.sound]
AMPE.PhaseSplit.Props.c91_split_many_value: [propext, Classical.choice, Quot.sound]
AMPE.PhaseSplit.Props.c91_split_many_three: [propext, Classical.choice, Quot.sound]
AMPE.PhaseSplit.Props.c91_split_three_partial: [propext, Classical.choice, Quot.sound]
AMPE.PhaseSplit.Props.c91_violation_split_three_iff: [propext, Classical.choice, Quot.sound]
AMPE.PhaseSplit.Props.c91_violation_default: [propext]
AMPE.PhaseSplit.Props.c91_diffusion_two: [propext, Classical.choice, Quot.sound]
AMPE.PhaseSplit.Props.c91_diffusion_beckermann: [propext, Classical.choice, Quot.sound]
AMPE.PhaseSplit.Props.c91_diffusion_many_partial: [propext, Classical.choice, Quot.sound]
AMPE.PhaseSplit.Props.c91_violation_harmonic: [propext, Classical.choice, Quot.sound]
AMPE.PhaseSplit.Props.c91_violation_sharp: [propext, Classical.choice, Quot.sound]
AMPE.PhaseSplit.Props.c91_diffusion_three_partial: [propext, Classical.choice, Quot.sound]
AMPE.PhaseSplit.Props.c91_violation_diffusion_three: [propext, Classical.choice, Quot.sound]
AMPE.PhaseSplit.Props.c91_violation_biased: [propext, Classical.choice, Quot.sound]
AMPE.PhaseSplit.Props.c91_fick: [propext, Classical.choice, Quot.sound]
AMPE.PhaseSplit.Props.c91_fick_one_partial: [propext, Classical.choice, Quot.sound]
AMPE.RateCall.Props.c92_function_partial: [propext, Classical.choice, Quot.sound]
AMPE.RateCall.Props.c92_difference_partial: [propext, Classical.choice, Quot.sound]
AMPE.RateCall.Props.c92_violation_lag: [propext, Classical.choice, Quot.sound]
AMPE.RateCall.Props.c92_violation_lag_differs: [propext, Classical.choice, Quot.sound]
AMPE.RateCall.Props.c92_aziz_returns: [propext, Classical.choice, Quot.sound]
AMPE.RateCall.Props.c92_violation_aziz: [propext, Classical.choice, Quot.sound]
AMPE.RateCall.Props.c92_aziz_consistent_partial: [propext, Classical.choice, Quot.sound]
AMPE.RateCall.Props.c92_violation_aziz_unfinished: [propext, Classical.choice, Quot.sound]
AMPE.RateCall.Props.c92_violation_aziz_difference: [propext, Classical.choice, Quot.sound]
AMPE.RateCall.Props.c92_violation_no_velocity: [propext, Classical.choice, Quot.sound]
AMPE.RateCall.Props.c92_violation_velocity_cache: [propext, Classical.choice, Quot.sound]
AMPE.RateCall.Props.c92_velocity_partial: [propext, Classical.choice, Quot.sound]
AMPE.RateCall.Props.c92_violation_noise: [propext, Classical.choice, Quot.sound]
AMPE.RateCall.Props.c92_violation_heat: [propext, Classical.choice, Quot.sound]
AMPE.RateCall.Props.c92_violation_rigid: [propext, Classical.choice, Quot.sound]
AMPE.RateCall.Props.c92_violation_steady: [propext, Classical.choice, Quot.sound]
AMPE.RateCall.Props.c92_preconditioner_lags: [propext, Classical.choice, Quot.sound]
AMPE.Frame.Props.c93_equivalent_partial: [propext, Classical.choice, Quot.sound]
AMPE.Frame.Props.c93_violation_orientation: [propext, Classical.choice, Quot.sound]
AMPE.Frame.Props.c93_unsteady: [propext, Classical.choice, Quot.sound]
AMPE.Frame.Props.c93_violation_aziz: [propext, Classical.choice, Quot.sound]
AMPE.Frame.Props.c93_violation_aziz_steady: [propext, Classical.choice, Quot.sound]
AMPE.Frame.Props.c93_violation_rest: [propext, Classical.choice, Quot.sound]
AMPE.Frame.Props.c94_front_partial: [propext, Classical.choice, Quot.sound]
AMPE.Frame.Props.c94_violation_small: [propext, Classical.choice, Quot.sound]
AMPE.Frame.Props.c94_error_partial: [propext, Classical.choice, Quot.sound]
AMPE.Frame.Props.c94_violation_refinement: [propext, Classical.choice, Quot.sound]
AMPE.Frame.Props.c94_violation_limit: [propext, Classical.choice, Quot.sound]
AMPE.Frame.Props.c94_violation_trapping: [propext, Classical.choice, Quot.sound]
AMPE.Frame.Props.c94_cells: [propext, Classical.choice, Quot.sound]
AMPE.Boundary.Props.c95_condition: [propext, Classical.choice, Quot.sound]
AMPE.Boundary.Props.c95_frame: [propext, Classical.choice, Quot.sound]
AMPE.Boundary.Props.c95_zero_gradient: [propext, Classical.choice, Quot.sound]
AMPE.Boundary.Props.c95_violation_fixed_value: [propext, Classical.choice, Quot.sound]
AMPE.Boundary.Props.c95_violation_quaternion: [propext, Classical.choice, Quot.sound]
AMPE.Boundary.Props.c95_sum: [propext, Classical.choice, Quot.sound]
AMPE.Boundary.Props.c95_prescribed_flux: [propext, Classical.choice, Quot.sound]
AMPE.Boundary.Props.c95_repeats: [propext, Classical.choice, Quot.sound]
AMPE.Boundary.Props.c95_no_flux: [propext, Classical.choice, Quot.sound]
AMPE.Boundary.Props.c95_conserves: [propext, Classical.choice, Quot.sound]
AMPE.Boundary.Props.c95_fourth_order_reads: [propext, Classical.choice, Quot.sound]
AMPE.Boundary.Props.c95_upwind_reads: [propext, Classical.choice, Quot.sound]
AMPE.Boundary.Props.c95_violation_cahn_hilliard: [propext, Classical.choice, Quot.sound]
AMPE.Boundary.Props.c95_violation_sintering: [propext, Classical.choice, Quot.sound]
AMPE.Boundary.Props.c95_cahn_hilliard_conserves_partial: [propext, Classical.choice, Quot.sound]
AMPE.Boundary.Props.c95_ghosts: [propext]
AMPE.Coupling.Props.c96_kks_linear: [propext, Classical.choice, Quot.sound]
AMPE.Coupling.Props.c96_kks_uniform_linear: [propext, Classical.choice, Quot.sound]
AMPE.Coupling.Props.c96_kks_uniform_partial: [propext, Classical.choice, Quot.sound]
AMPE.Coupling.Props.c96_violation_kks_h: [propext, Classical.choice, Quot.sound]
AMPE.Coupling.Props.c96_violation_kks_mixed: [propext, Classical.choice, Quot.sound]
AMPE.Coupling.Props.c96_violation_kks_second_species: [propext, Classical.choice, Quot.sound]
AMPE.Coupling.Props.c96_beckermann_linear: [propext, Classical.choice, Quot.sound]
AMPE.Coupling.Props.c96_beckermann_zero_iff: [propext, Classical.choice, Quot.sound]
AMPE.Coupling.Props.c96_violation_beckermann_nonlinear: [propext, Classical.choice, Quot.sound]
AMPE.Coupling.Props.c96_violation_beckermann_neighbour: [propext, Classical.choice, Quot.sound]
AMPE.Coupling.Props.c96_violation_beckermann_ghosts: [propext, Classical.choice, Quot.sound]
AMPE.Coupling.Props.c96_addresses: [propext, Quot.sound]
AMPE.FACSolve.Props.c97_reported_norm: [propext, Classical.choice, Quot.sound]
AMPE.FACSolve.Props.c97_tolerance: [propext, Classical.choice, Quot.sound]
AMPE.FACSolve.Props.c97_cycles: [propext, Classical.choice, Quot.sound]
AMPE.FACSolve.Props.c97_violation_equality: [propext, Classical.choice, Quot.sound]
AMPE.FACSolve.Props.c97_factors: [propext, Classical.choice, Quot.sound]
AMPE.FACSolve.Props.c97_violation_max_cycles: [propext, Classical.choice, Quot.sound]
AMPE.FACSolve.Props.c97_recursive_eq_unrolled: [propext, Classical.choice, Quot.sound]
AMPE.FACSolve.Props.c97_scratch_irrelevant: [propext, Classical.choice, Quot.sound]
AMPE.FACSolve.Props.c97_exact_guess: [propext, Classical.choice, Quot.sound]
AMPE.FACSolve.Props.c97_linear: [propext, Classical.choice, Quot.sound]
AMPE.FACSolve.Props.c97_linear_one_cycle: [propext, Classical.choice, Quot.sound]
AMPE.FACSolve.Props.c97_converges: [propext, Classical.choice, Quot.sound]
AMPE.FACSolve.Props.c97_two_levels: [propext, Classical.choice, Quot.sound]
AMPE.FACSolve.Props.c97_violation_mccormick: [propext, Classical.choice, Quot.sound]
AMPE.FACSolve.Props.c97_violation_mccormick_fails: [propext, Classical.choice, Quot.sound]
AMPE.FACSolve.Props.c97_violation_linear: [propext, Classical.choice, Quot.sound]
AMPE.StepCall.Props.c98_clocks: [propext, Classical.choice, Quot.sound]
AMPE.StepCall.Props.c98_step_time: [propext, Classical.choice, Quot.sound]
AMPE.StepCall.Props.c98_first_step: [propext, Classical.choice, Quot.sound]
AMPE.StepCall.Props.c98_regrid_continues: [propext, Classical.choice, Quot.sound]
AMPE.StepCall.Props.c98_underway: [propext, Classical.choice, Quot.sound]
AMPE.StepCall.Props.c98_violation_edit: [propext, Classical.choice, Quot.sound]
AMPE.StepCall.Props.c98_reset_takes_edit: [propext, Classical.choice, Quot.sound]
AMPE.StepCall.Props.c98_violation_relax: [propext, Classical.choice, Quot.sound]
AMPE.StepCall.Props.c98_violation_warm_start: [propext, Classical.choice, Quot.sound]
AMPE.StepCall.Props.c98_violation_setTimestep: [propext, Classical.choice, Quot.sound]
AMPE.StepCall.Props.c98_violation_temperature: [propext, Classical.choice, Quot.sound]
AMPE.StepCall.Props.c98_state_partial: [propext, Classical.choice, Quot.sound]
AMPE.StepCall.Props.c98_step_statistics: [propext, Classical.choice, Quot.sound]
AMPE.StepCall.Props.c98_violation_totals: [propext, Classical.choice, Quot.sound]
AMPE.CoarseFine.Props.c99_exact2: [propext, Classical.choice, Quot.sound]
AMPE.CoarseFine.Props.c99_spacing_partial: [propext, Classical.choice, Quot.sound]
AMPE.CoarseFine.Props.c99_untouched2: [propext, Classical.choice, Quot.sound]
AMPE.CoarseFine.Props.c99_violation_components: [propext, Classical.choice, Quot.sound]
AMPE.CoarseFine.Props.c99_exchange2: [propext, Classical.choice, Quot.sound]
AMPE.CoarseFine.Props.c99_violation_constant_refine: [propext, Classical.choice, Quot.sound]
AMPE.CoarseFine.Props.c99_linear_refine: [propext, Classical.choice, Quot.sound]
AMPE.CoarseFine.Props.c99_default: [propext, Classical.choice, Quot.sound]
AMPE.CoarseFine.Props.c99_violation_orientation: [propext, Quot.sound]
AMPE.CoarseFine.Props.c99_exact3: [propext, Classical.choice, Quot.sound]
AMPE.CoarseFine.Props.c99_untouched3: [propext, Classical.choice, Quot.sound]
AMPE.QuatPrecond.Props.c100_gate: [propext, Classical.choice, Quot.sound]
AMPE.QuatPrecond.Props.c100_solves: [propext, Classical.choice, Quot.sound]
AMPE.QuatPrecond.Props.c100_linearised: [propext, Classical.choice, Quot.sound]
AMPE.QuatPrecond.Props.c100_uncoupled: [propext, Classical.choice, Quot.sound]
AMPE.QuatPrecond.Props.c100_violation_coupling: [propext, Classical.choice, Quot.sound]
AMPE.QuatPrecond.Props.c100_coupling_partial: [propext, Classical.choice, Quot.sound]
AMPE.QuatPrecond.Props.c100_violation_mobility: [propext, Classical.choice, Quot.sound]
AMPE.QuatPrecond.Props.c100_coupled: [propext, Classical.choice, Quot.sound]
AMPE.QuatPrecond.Props.c100_blocks_once: []
AMPE.QuatPrecond.Props.c100_order: [propext, Quot.sound]
AMPE.QuatPrecond.Props.c100_violation_both: [propext]
AMPE.QuatPrecond.Props.c100_retcode: [propext, Classical.choice, Quot.sound]
AMPE.QuatPrecond.Props.c100_violation_last_order_parameter: [propext, Quot.sound]
AMPE.Restart.Props.c101_single_level_partial: [propext, Classical.choice, Quot.sound]
AMPE.Restart.Props.c101_no_stale_memory: [propext, Classical.choice, Quot.sound]
AMPE.Restart.Props.c101_violation_levels: [propext, Classical.choice, Quot.sound]
AMPE.Restart.Props.c101_resumes_iff: [propext, Classical.choice, Quot.sound]
AMPE.Restart.Props.c101_violation_fine_data: [propext, Classical.choice, Quot.sound]
AMPE.Restart.Props.c101_violation_temperature: [propext, Classical.choice, Quot.sound]
AMPE.Restart.Props.c101_guess_partial: [propext, Classical.choice, Quot.sound]
AMPE.Restart.Props.c101_violation_guess_zero: [propext, Classical.choice, Quot.sound]
AMPE.Restart.Props.c101_new_run_guess: [propext, Classical.choice, Quot.sound]
AMPE.Restart.Props.c101_violation_guess_reference: [propext, Classical.choice, Quot.sound]
AMPE.Restart.Props.c101_violation_velocity: [propext, Classical.choice, Quot.sound]
AMPE.Restart.Props.c101_file: [propext, Classical.choice, Quot.sound]
AMPE.Restart.Props.c101_memory_iff: [propext, Classical.choice, Quot.sound]
AMPE.Restart.Props.c101_violation_fine_rest: [propext, Classical.choice, Quot.sound]
AMPE.Restart.Props.c101_diagnostics_change: [propext, Classical.choice, Quot.sound]
AMPE.Restart.Props.c101_step_change: [propext, Classical.choice, Quot.sound]
AMPE.Restart.Props.c101_grain_decisions: [propext]
AMPE.Restart.Props.c101_violation_grains: [propext, Quot.sound]
AMPE.Restart.Props.c101_grains_partial: [propext, Quot.sound]
AMPE.Restart.Props.c101_violation_amr: []
AMPE.Restart.Props.c101_violation_amr_default: []
AMPE.Restart.Props.c101_same_amr_partial: []
AMPE.Remesh.Props.c102_composition: [propext, Quot.sound]
AMPE.Remesh.Props.c102_phase_partial: [propext, Quot.sound]
AMPE.Remesh.Props.c102_violation_deleted: [propext, Quot.sound]
AMPE.Remesh.Props.c102_violation_schedules: [propext, Quot.sound]
AMPE.Remesh.Props.c102_violation_released: [propext, Quot.sound]
AMPE.Remesh.Props.c102_violation_growth: [propext, Quot.sound]
AMPE.Remesh.Props.c102_repair: [propext, Quot.sound]
AMPE.Noise.Props.c103_field: [propext, Classical.choice, Quot.sound]
AMPE.Noise.Props.c103_bulk: [propext, Classical.choice, Quot.sound]
AMPE.Noise.Props.c103_range: [propext, Classical.choice, Quot.sound]
AMPE.Noise.Props.c103_even: [propext, Classical.choice, Quot.sound]
AMPE.Noise.Props.c103_bound: [propext, Classical.choice, Quot.sound]
AMPE.Noise.Props.c103_outside: [propext, Classical.choice, Quot.sound]
AMPE.Noise.Props.c103_violation_ranks: [propext, Classical.choice, Quot.sound]
AMPE.Noise.Props.c103_violation_dependent: [propext]
AMPE.Noise.Props.c103_violation_first: [propext, Classical.choice, Quot.sound]
AMPE.Noise.Props.c103_step_partial: [propext, Classical.choice, Quot.sound]
AMPE.Noise.Props.c103_scaling: [propext, Classical.choice, Quot.sound]
AMPE.Noise.Props.c103_start: [propext, Classical.choice, Quot.sound]
AMPE.Noise.Props.c103_off: [propext, Classical.choice, Quot.sound]
AMPE.Noise.Props.c103_violation_resumed: [propext, Classical.choice, Quot.sound]
AMPE.Noise.Props.c103_violation_remeshed: [propext, Classical.choice, Quot.sound]
AMPE.Noise.Props.c103_violation_order: [propext, Classical.choice, Quot.sound]
AMPE.Noise.Props.c103_violation_ignored: [propext, Quot.sound]
AMPE.PhaseConc.Props.c104_present: [propext, Classical.choice, Quot.sound]
AMPE.PhaseConc.Props.c104_storage: [propext, Classical.choice, Quot.sound]
AMPE.PhaseConc.Props.c104_storage_fluxes: [propext, Classical.choice, Quot.sound]
AMPE.PhaseConc.Props.c104_elsewhere: [propext, Classical.choice, Quot.sound]
AMPE.PhaseConc.Props.c104_cells_x: [propext, Classical.choice, Quot.sound]
AMPE.PhaseConc.Props.c104_cells_y: [propext, Classical.choice, Quot.sound]
AMPE.PhaseConc.Props.c104_flux_present: [propext, Classical.choice, Quot.sound]
AMPE.PhaseConc.Props.c104_patch_partial: [propext, Classical.choice, Quot.sound]
AMPE.PhaseConc.Props.c104_violation_ghosts: [propext, Classical.choice, Quot.sound]
AMPE.PhaseConc.Props.c104_violation_flux: [propext, Classical.choice, Quot.sound]
AMPE.PhaseConc.Props.c104_workspace_partial: [propext, Classical.choice, Quot.sound]
AMPE.PhaseConc.Props.c104_violation_workspace: [propext, Classical.choice, Quot.sound]
AMPE.DrivingForce.Props.c105_rate: [propext, Classical.choice, Quot.sound]
AMPE.DrivingForce.Props.c105_local: [propext, Classical.choice, Quot.sound]
AMPE.DrivingForce.Props.c105_two_phases: [propext, Classical.choice, Quot.sound]
AMPE.DrivingForce.Props.c105_plot: [propext, Classical.choice, Quot.sound]
AMPE.DrivingForce.Props.c105_plot_binary: [propext, Classical.choice, Quot.sound]
AMPE.DrivingForce.Props.c105_violation_plot: [propext, Classical.choice, Quot.sound]
AMPE.DrivingForce.Props.c105_recorded_rate: [propext, Classical.choice, Quot.sound]
AMPE.DrivingForce.Props.c105_violation_recorded: [propext, Classical.choice, Quot.sound]
AMPE.DrivingForce.Props.c105_units_partial: [propext, Classical.choice, Quot.sound]
AMPE.DrivingForce.Props.c105_violation_units: [propext, Classical.choice, Quot.sound]
AMPE.DrivingForce.Props.c105_force_binary: [propext, Classical.choice, Quot.sound]
AMPE.DrivingForce.Props.c105_force_ternary: [propext, Classical.choice, Quot.sound]
AMPE.DrivingForce.Props.c105_force_multi: [propext, Classical.choice, Quot.sound]
AMPE.DrivingForce.Props.c105_force_multi_tangent: [propext, Classical.choice, Quot.sound]
AMPE.DrivingForce.Props.c105_equilibrium: [propext, Classical.choice, Quot.sound]
AMPE.DrivingForce.Props.c105_equilibrium_ternary: [propext, Classical.choice, Quot.sound]
AMPE.Rescale.Props.c106_unit: [propext, Classical.choice, Quot.sound]
AMPE.Rescale.Props.c106_melt_force: [propext, Classical.choice, Quot.sound]
AMPE.Rescale.Props.c106_melt_difference: [propext, Classical.choice, Quot.sound]
AMPE.Rescale.Props.c106_melt_sign: [propext, Classical.choice, Quot.sound]
AMPE.Rescale.Props.c106_well_partial: [propext, Classical.choice, Quot.sound]
AMPE.Rescale.Props.c106_violation_beckermann: [propext, Classical.choice, Quot.sound]
AMPE.Rescale.Props.c106_violation_pure_well: [propext, Classical.choice, Quot.sound]
AMPE.Rescale.Props.c106_orientation: [propext, Classical.choice, Quot.sound]
AMPE.Rescale.Props.c106_heat: [propext, Classical.choice, Quot.sound]
AMPE.Rescale.Props.c106_heat3: [propext, Classical.choice, Quot.sound]
AMPE.Rescale.Props.c106_energy: [propext, Classical.choice, Quot.sound]
AMPE.Rescale.Props.c106_model_boundary: [propext, Classical.choice, Quot.sound]
AMPE.Rescale.Props.c106_violation_boundary: [propext, Classical.choice, Quot.sound]
AMPE.Rescale.Props.c106_violation_condition: [propext, Classical.choice, Quot.sound]
AMPE.Rescale.Props.c106_stencil: [propext, Classical.choice, Quot.sound]
AMPE.Rescale.Props.c106_evolution_partial: [propext, Classical.choice, Quot.sound]
AMPE.Rescale.Props.c106_violation_evolution: [propext, Classical.choice, Quot.sound]
AMPE.Rescale.Props.c106_insulated: [propext, Classical.choice, Quot.sound]
AMPE.Rescale.Props.c106_violation_arrhenius: [propext, Classical.choice, Quot.sound]
AMPE.Rescale.Props.c106_violation_output: [propext, Classical.choice, Quot.sound]
AMPE.Projection.Props.c107_orientation: [propext, Classical.choice, Quot.sound]
AMPE.Projection.Props.c107_defined: [propext, Classical.choice, Quot.sound]
AMPE.Projection.Props.c107_phases_partial: [propext, Classical.choice, Quot.sound]
AMPE.Projection.Props.c107_violation_fine: [propext, Classical.choice, Quot.sound]
AMPE.Projection.Props.c107_violation_everywhere: [propext, Classical.choice, Quot.sound]
AMPE.Projection.Props.c107_rest: [propext, Classical.choice, Quot.sound]
AMPE.Projection.Props.c107_fixed: [propext, Classical.choice, Quot.sound]
AMPE.MeltFlow.Props.c108_defined: [propext, Classical.choice, Quot.sound]
AMPE.MeltFlow.Props.c108_balance: [propext, Classical.choice, Quot.sound]
AMPE.MeltFlow.Props.c108_decay_partial: [propext, Classical.choice, Quot.sound]
AMPE.MeltFlow.Props.c108_rest_partial: [propext, Classical.choice, Quot.sound]
AMPE.MeltFlow.Props.c108_monotone_partial: [propext, Classical.choice, Quot.sound]
AMPE.MeltFlow.Props.c108_bounded_partial: [propext, Classical.choice, Quot.sound]
AMPE.MeltFlow.Props.c108_violation_interpolation: [propext, Classical.choice, Quot.sound]
AMPE.MeltFlow.Props.c108_violation_case: [propext, Classical.choice, Quot.sound]
AMPE.MeltFlow.Props.c108_balance3: [propext, Classical.choice, Quot.sound]
AMPE.MeltFlow.Props.c108_decay3_partial: [propext, Classical.choice, Quot.sound]
AMPE.MeltFlow.Props.c108_monotone3_partial: [propext, Classical.choice, Quot.sound]
AMPE.PrecondCall.Props.c109_applied: [propext, Classical.choice, Quot.sound]
AMPE.PrecondCall.Props.c109_function_partial: [propext, Classical.choice, Quot.sound]
AMPE.PrecondCall.Props.c109_system_partial: [propext, Classical.choice, Quot.sound]
AMPE.PrecondCall.Props.c109_linear_partial: [propext, Classical.choice, Quot.sound]
AMPE.PrecondCall.Props.c109_identity: [propext, Classical.choice, Quot.sound]
AMPE.PrecondCall.Props.c109_recoverable: [propext, Classical.choice, Quot.sound]
AMPE.PrecondCall.Props.c109_setup: [propext, Quot.sound]
AMPE.PrecondCall.Props.c109_setup_sound: [propext, Quot.sound]
AMPE.PrecondCall.Props.c109_violation_empty: [propext]
AMPE.PrecondCall.Props.c109_violation_content: [propext, Classical.choice, Quot.sound]
AMPE.PrecondCall.Props.c109_violation_stale: [propext, Classical.choice, Quot.sound]
AMPE.PrecondCall.Props.c109_violation_last: [propext, Classical.choice, Quot.sound]
AMPE.AlloyFlow.Props.c110_defined: [propext, Classical.choice, Quot.sound]
AMPE.AlloyFlow.Props.c110_balance: [propext, Classical.choice, Quot.sound]
AMPE.AlloyFlow.Props.c110_decay_partial: [propext, Classical.choice, Quot.sound]
AMPE.AlloyFlow.Props.c110_ebs_downhill: [propext, Classical.choice, Quot.sound]
AMPE.AlloyFlow.Props.c110_kks_downhill_partial: [propext, Classical.choice, Quot.sound]
AMPE.AlloyFlow.Props.c110_monotone_partial: [propext, Classical.choice, Quot.sound]
AMPE.AlloyFlow.Props.c110_rest_partial: [propext, Classical.choice, Quot.sound]
AMPE.AlloyFlow.Props.c110_no_cycle_partial: [propext, Classical.choice, Quot.sound]
AMPE.AlloyFlow.Props.c110_violation_kks: [propext, Classical.choice, Quot.sound]
AMPE.AlloyFlow.Props.c110_violation_uniform: [propext, Classical.choice, Quot.sound]
AMPE.AlloyFlow.Props.c110_violation_volumes: [propext, Classical.choice, Quot.sound]
AMPE.AlloyFlow.Props.c110_violation_interpolations: [propext, Classical.choice, Quot.sound]
AMPE.StartGuess.Props.c111_step: [propext, Classical.choice, Quot.sound]
AMPE.StartGuess.Props.c111_order_independent: [propext, Classical.choice, Quot.sound]
AMPE.StartGuess.Props.c111_run: [propext, Classical.choice, Quot.sound]
AMPE.StartGuess.Props.c111_references_calphad: [propext, Quot.sound]
AMPE.StartGuess.Props.c111_settings: [propext]
AMPE.StartGuess.Props.c111_violation_order: [propext, Classical.choice, Quot.sound]
AMPE.StartGuess.Props.c111_violation_unset: [propext, Classical.choice, Quot.sound]
AMPE.StartGuess.Props.c111_restart_partial: [propext, Classical.choice, Quot.sound]
AMPE.StartGuess.Props.c111_violation_restart_diagnostics: [propext, Classical.choice, Quot.sound]
AMPE.StartGuess.Props.c111_violation_restart_reference: [propext, Classical.choice, Quot.sound]
AMPE.StartGuess.Props.c111_violation_regrid: [propext, Classical.choice, Quot.sound]
AMPE.StartGuess.Props.c111_first_guess: [propext, Classical.choice, Quot.sound]
AMPE.StartGuess.Props.c111_violation_equilibrium_unused: [propext, Classical.choice, Quot.sound]
AMPE.StartGuess.Props.c111_equilibrium_used: [propext, Classical.choice, Quot.sound]
AMPE.StartGuess.Props.c111_violation_species: [propext, Classical.choice, Quot.sound]
AMPE.StartGuess.Props.c111_violation_array: [propext, Classical.choice, Quot.sound]
AMPE.StartGuess.Props.c111_bracket: [propext, Classical.choice, Quot.sound]
AMPE.StartGuess.Props.c111_equilibrium_checked: [propext, Classical.choice, Quot.sound]
AMPE.StartGuess.Props.c111_equilibrium_abort: [propext, Classical.choice, Quot.sound]
AMPE.StartGuess.Props.c111_first_ceq: [propext, Classical.choice, Quot.sound]
AMPE.StartGuess.Props.c111_first_ceq_two: [propext, Classical.choice, Quot.sound]
AMPE.StartGuess.Props.c111_violation_solid_unchecked: [propext, Classical.choice, Quot.sound]
AMPE.StartGuess.Props.c111_violation_third_phase: [propext, Classical.choice, Quot.sound]
AMPE.StartGuess.Props.c111_uniform: [propext, Classical.choice, Quot.sound]
AMPE.StartGuess.Props.c111_settings_usable: [propext, Classical.choice, Quot.sound]
AMPE.StartGuess.Props.c111_violation_settings: [propext, Classical.choice, Quot.sound]
AMPE.StartGuess.Props.c111_settings_values: [propext, Classical.choice, Quot.sound]
AMPE.Smoothing.Props.c112_frozen: [propext, Classical.choice, Quot.sound]
AMPE.Smoothing.Props.c112_frozen_3d: [propext, Classical.choice, Quot.sound]
AMPE.Smoothing.Props.c112_mean: [propext, Classical.choice, Quot.sound]
AMPE.Smoothing.Props.c112_mean_3d: [propext, Classical.choice, Quot.sound]
AMPE.Smoothing.Props.c112_between: [propext, Classical.choice, Quot.sound]
AMPE.Smoothing.Props.c112_between_3d: [propext, Classical.choice, Quot.sound]
AMPE.Smoothing.Props.c112_same_grain: [propext, Classical.choice, Quot.sound]
AMPE.Smoothing.Props.c112_roughness: [propext, Classical.choice, Quot.sound]
AMPE.Smoothing.Props.c112_roughness_passes: [propext, Classical.choice, Quot.sound]
AMPE.Smoothing.Props.c112_roughness_3d: [propext, Classical.choice, Quot.sound]
AMPE.Smoothing.Props.c112_violation_alternating: [propext, Classical.choice, Quot.sound]
AMPE.Smoothing.Props.c112_alternating_2d: [propext, Classical.choice, Quot.sound]
AMPE.Smoothing.Props.c112_violation_length: [propext, Classical.choice, Quot.sound]
AMPE.Smoothing.Props.c112_violation_length_3d: [propext, Classical.choice, Quot.sound]
AMPE.Smoothing.Props.c112_violation_frame: [propext, Classical.choice, Quot.sound]
AMPE.Smoothing.Props.c112_violation_pushes: [propext, Classical.choice, Quot.sound]
AMPE.Smoothing.Props.c112_sign_rotation: [propext, Classical.choice, Quot.sound]
AMPE.Smoothing.Props.c112_fundamental_same: [propext, Classical.choice, Quot.sound]
AMPE.Smoothing.Props.c112_fundamental_defined: [propext, Classical.choice, Quot.sound]
AMPE.Smoothing.Props.c112_fundamental_nearest: [propext, Classical.choice, Quot.sound]
AMPE.Smoothing.Props.c112_fundamental_unique: [propext, Classical.choice, Quot.sound]
AMPE.Smoothing.Props.c112_fundamental_idempotent: [propext, Classical.choice, Quot.sound]
AMPE.Smoothing.Props.c112_fundamental_reference: [propext, Classical.choice, Quot.sound]
AMPE.Smoothing.Props.c112_reset_iff: [propext, Classical.choice, Quot.sound]
AMPE.Smoothing.Props.c112_first_step: [propext, Classical.choice, Quot.sound]
AMPE.Smoothing.Props.c112_violation_restart: [propext, Classical.choice, Quot.sound]
AMPE.Smoothing.Props.c112_violation_never_counted: [propext, Classical.choice, Quot.sound]
AMPE.Smoothing.Props.c112_interval_kept: [propext, Classical.choice, Quot.sound]
AMPE.Smoothing.Props.c112_relax: [propext, Classical.choice, Quot.sound]
AMPE.Smoothing.Props.c112_violation_relax_no_interface: [propext, Classical.choice, Quot.sound]
AMPE.InterfaceDiff.Props.c113_pairs: [propext, Classical.choice, Quot.sound]
AMPE.InterfaceDiff.Props.c113_own_constant: [propext, Classical.choice, Quot.sound]
AMPE.InterfaceDiff.Props.c113_bulk: [propext, Classical.choice, Quot.sound]
AMPE.InterfaceDiff.Props.c113_renaming: [propext, Classical.choice, Quot.sound]
AMPE.InterfaceDiff.Props.c113_violation_twice: [propext, Classical.choice, Quot.sound]
AMPE.SmoothLevel.Props.c114_converges2: [propext, Classical.choice, Quot.sound]
AMPE.SmoothLevel.Props.c114_converges3: [propext, Classical.choice, Quot.sound]
AMPE.SmoothLevel.Props.c114_solution2: [propext, Classical.choice, Quot.sound]
AMPE.SmoothLevel.Props.c114_solution3: [propext, Classical.choice, Quot.sound]
AMPE.SmoothLevel.Props.c114_limit2: [propext, Classical.choice, Quot.sound]
AMPE.SmoothLevel.Props.c114_limit3: [propext, Classical.choice, Quot.sound]
AMPE.SmoothLevel.Props.c114_rate2: [propext, Classical.choice, Quot.sound]
AMPE.SmoothLevel.Props.c114_error_of_residual2: [propext, Classical.choice, Quot.sound]
AMPE.SmoothLevel.Props.c114_error_of_residual3: [propext, Classical.choice, Quot.sound]
AMPE.SmoothLevel.Props.c114_stop_partial: [propext, Classical.choice, Quot.sound]
AMPE.SmoothLevel.Props.c114_violation_last_patch: [propext, Classical.choice, Quot.sound]
AMPE.SmoothLevel.Props.c114_violation_stops_far_away: [propext, Classical.choice, Quot.sound]
AMPE.SmoothLevel.Props.c114_violation_never_updated: [propext, Classical.choice, Quot.sound]
AMPE.PrecondLevel.Props.c115_temperature: [propext, Classical.choice, Quot.sound]
AMPE.PrecondLevel.Props.c115_composition: [propext, Classical.choice, Quot.sound]
AMPE.PrecondLevel.Props.c115_phase_coefficient: [propext, Classical.choice, Quot.sound]
AMPE.PrecondLevel.Props.c115_phase: [propext, Classical.choice, Quot.sound]
AMPE.PrecondLevel.Props.c115_phase_small_step_partial: [propext, Classical.choice, Quot.sound]
AMPE.PrecondLevel.Props.c115_resolved: [propext, Classical.choice, Quot.sound]
AMPE.PrecondLevel.Props.c115_violation_zero_diagonal: [propext, Classical.choice, Quot.sound]
AMPE.PrecondLevel.Props.c115_violation_diverges: [propext, Classical.choice, Quot.sound]
AMPE.GrainEnergy.Props.c116_gradient: [propext, Classical.choice, Quot.sound]
AMPE.GrainEnergy.Props.c116_uniform: [propext, Classical.choice, Quot.sound]
AMPE.GrainEnergy.Props.c116_second_order: [propext, Classical.choice, Quot.sound]
AMPE.GrainEnergy.Props.c116_violation_floor_force: [propext, Classical.choice, Quot.sound]
AMPE.GrainEnergy.Props.c116_violation_energy_grows: [propext, Classical.choice, Quot.sound]
AMPE.GrainEnergy.Props.c116_modulus: [propext, Classical.choice, Quot.sound]
AMPE.GrainEnergy.Props.c116_violation_thin_grain: [propext, Classical.choice, Quot.sound]
AMPE.GrainEnergy.Props.c116_reported_density: [propext, Classical.choice, Quot.sound]
AMPE.GrainEnergy.Props.c116_flux_sqrt: [propext, Classical.choice, Quot.sound]
AMPE.GrainEnergy.Props.c116_flux_max_partial: [propext, Classical.choice, Quot.sound]
AMPE.GrainEnergy.Props.c116_violation_flux_max: [propext, Classical.choice, Quot.sound]
AMPE.GrainEnergy.Props.c116_violation_flux_tanh: [propext, Classical.choice, Quot.sound]
AMPE.Options.Props.c117_interp_letters: [propext, Classical.choice, Quot.sound]
AMPE.Options.Props.c117_floor_letters: [propext, Classical.choice, Quot.sound]
AMPE.Options.Props.c117_well_known: [propext, Classical.choice, Quot.sound]
AMPE.Options.Props.c117_average_known: [propext, Classical.choice, Quot.sound]
AMPE.Options.Props.c117_interp_known: [propext, Classical.choice, Quot.sound]
AMPE.Options.Props.c117_interp_has_letter: [propext, Classical.choice, Quot.sound]
AMPE.Options.Props.c117_violation_biased: [propext, Classical.choice, Quot.sound]
AMPE.Options.Props.c117_diffusion_known_partial: [propext, Classical.choice, Quot.sound]
AMPE.Options.Props.c117_orientation_known_partial: [propext, Classical.choice, Quot.sound]
AMPE.Options.Props.c117_mobility_known: [propext, Classical.choice, Quot.sound]
AMPE.Options.Props.c117_violation_tanh_interp: [propext, Classical.choice, Quot.sound]
AMPE.Options.Props.c117_violation_unchecked: [propext, Classical.choice, Quot.sound]
AMPE.Options.Props.c117_violation_refused: [propext, Classical.choice, Quot.sound]
AMPE.Options.Props.c117_number_used: [propext, Classical.choice, Quot.sound]
AMPE.Options.Props.c117_old_number_used: [propext, Classical.choice, Quot.sound]
AMPE.Options.Props.c117_violation_smooth_floor_ignored: [propext, Classical.choice, Quot.sound]
AMPE.Options.Props.c117_violation_old_text_wins: [propext, Classical.choice, Quot.sound]
AMPE.Options.Props.c117_violation_quat_only: [propext, Classical.choice, Quot.sound]
AMPE.Options.Props.c117_violation_two_averages: [propext, Classical.choice, Quot.sound]
AMPE.Options.Props.c117_double_well: [propext, Classical.choice, Quot.sound]
AMPE.Options.Props.c117_violation_single_well: [propext, Classical.choice, Quot.sound]
AMPE.Options.Props.c117_violation_exp_default: [propext, Classical.choice, Quot.sound]
AMPE.Options.Props.c117_violation_conc_average: [propext, Classical.choice, Quot.sound]
AMPE.Options.Props.c117_violation_activation: [propext, Classical.choice, Quot.sound]
AMPE.QuatFlow3.Props.c118_dissipates_plain: [propext, Classical.choice, Quot.sound]
AMPE.QuatFlow3.Props.c118_dissipates_angle: [propext, Classical.choice, Quot.sound]
AMPE.QuatFlow3.Props.c118_coef_sign: [propext, Classical.choice, Quot.sound]
AMPE.QuatFlow3.Props.c118_energy_nonneg: [propext, Classical.choice, Quot.sound]
AMPE.QuatFlow3.Props.c118_speed: [propext, Classical.choice, Quot.sound]
AMPE.QuatFlow3.Props.c118_isotropic_stops: [propext, Classical.choice, Quot.sound]
AMPE.QuatFlow3.Props.c118_violation_checks: [propext, Classical.choice, Quot.sound]
AMPE.QuatFlow3.Props.c118_violation_residual: [propext, Classical.choice, Quot.sound]
AMPE.QuatFlow3.Props.c118_tangent: [propext, Classical.choice, Quot.sound]
AMPE.QuatFlow3.Props.c118_violation_unrotated: [propext, Classical.choice, Quot.sound]
AMPE.QuatFlow3.Props.c118_violation_default: [propext, Classical.choice, Quot.sound]
AMPE.QuatFlow3.Props.c118_intended4: [propext, Classical.choice, Quot.sound]
AMPE.QuatFlow3.Props.c118_intended2: [propext, Classical.choice, Quot.sound]
AMPE.QuatFlow3.Props.c118_unlabelled_partial: [propext, Classical.choice, Quot.sound]
AMPE.QuatFlow3.Props.c118_violation_relabel4: [propext, Classical.choice, Quot.sound]
AMPE.QuatFlow3.Props.c118_violation_reversed: [propext, Classical.choice, Quot.sound]
AMPE.AlloyFlow3.Props.c119_defined: [propext, Classical.choice, Quot.sound]
AMPE.AlloyFlow3.Props.c119_balance: [propext, Classical.choice, Quot.sound]
AMPE.AlloyFlow3.Props.c119_decay_partial: [propext, Classical.choice, Quot.sound]
AMPE.AlloyFlow3.Props.c119_ebs_downhill: [propext, Classical.choice, Quot.sound]
AMPE.AlloyFlow3.Props.c119_kks_linear: [propext, Classical.choice, Quot.sound]
AMPE.AlloyFlow3.Props.c119_kks_downhill_partial: [propext, Classical.choice, Quot.sound]
AMPE.AlloyFlow3.Props.c119_monotone_partial: [propext, Classical.choice, Quot.sound]
AMPE.AlloyFlow3.Props.c119_rest_partial: [propext, Classical.choice, Quot.sound]
AMPE.AlloyFlow3.Props.c119_no_cycle_partial: [propext, Classical.choice, Quot.sound]
AMPE.AlloyFlow3.Props.c119_columns_phase: [propext, Classical.choice, Quot.sound]
AMPE.AlloyFlow3.Props.c119_columns_solute: [propext, Classical.choice, Quot.sound]
AMPE.AlloyFlow3.Props.c119_columns_kks: [propext, Classical.choice, Quot.sound]
AMPE.AlloyFlow3.Props.c119_columns_energy: [propext, Classical.choice, Quot.sound]
AMPE.AlloyFlow3.Props.c119_columns_follow: [propext, Classical.choice, Quot.sound]
AMPE.AlloyFlow3.Props.c119_violation_kks: [propext, Classical.choice, Quot.sound]
AMPE.AlloyFlow3.Props.c119_columns_run: [propext, Classical.choice, Quot.sound]
AMPE.ConservedFlow3.Props.c120_ch_conserves: [propext, Classical.choice, Quot.sound]
AMPE.ConservedFlow3.Props.c120_ch_dissipation: [propext, Classical.choice, Quot.sound]
AMPE.ConservedFlow3.Props.c120_ch_run: [propext, Classical.choice, Quot.sound]
AMPE.ConservedFlow3.Props.c120_ch_rest: [propext, Classical.choice, Quot.sound]
AMPE.ConservedFlow3.Props.c120_sinter_conserves: [propext, Classical.choice, Quot.sound]
AMPE.ConservedFlow3.Props.c120_sinter_dissipation: [propext, Classical.choice, Quot.sound]
AMPE.ConservedFlow3.Props.c120_coefficient: [propext, Classical.choice, Quot.sound]
AMPE.ConservedFlow3.Props.c120_coefficient_nonneg: [propext, Classical.choice, Quot.sound]
AMPE.ConservedFlow3.Props.c120_sinter_run: [propext, Classical.choice, Quot.sound]
AMPE.ConservedFlow3.Props.c120_sinter_rest: [propext, Classical.choice, Quot.sound]
AMPE.ConservedFlow3.Props.c120_violation_mobility: [propext, Classical.choice, Quot.sound]
AMPE.ConservedFlow3.Props.c120_columns_ch: [propext, Classical.choice, Quot.sound]
AMPE.ConservedFlow3.Props.c120_columns_sinter: [propext, Classical.choice, Quot.sound]
AMPE.ConservedFlow3.Props.c120_columns_phase: [propext, Classical.choice, Quot.sound]
AMPE.ConservedFlow3.Props.c120_columns_energy: [propext, Classical.choice, Quot.sound]
AMPE.LevelSolve3.Props.c121_violation_boundary_mobility: [propext, Classical.choice, Quot.sound]
AMPE.LevelSolve3.Props.c121_exact_partial: [propext, Classical.choice, Quot.sound]
AMPE.LevelSolve3.Props.c121_violation_dirichlet: [propext, Classical.choice, Quot.sound]
AMPE.LevelSolve3.Props.c121_exact_const: [propext, Classical.choice, Quot.sound]
AMPE.LevelSolve3.Props.c121_positive: [propext, Classical.choice, Quot.sound]
AMPE.LevelSolve3.Props.c121_solvable: [propext, Classical.choice, Quot.sound]
AMPE.LevelSolve3.Props.c121_violation_quat_mobility: [propext, Classical.choice, Quot.sound]
AMPE.LevelSolve3.Props.c121_quat_exact_partial: [propext, Classical.choice, Quot.sound]
AMPE.LevelSolve3.Props.c121_quat_positive: [propext, Classical.choice, Quot.sound]
AMPE.LevelSolve3.Props.c121_quat_solvable: [propext, Classical.choice, Quot.sound]
AMPE.LevelSolve3.Props.c121_quat_symmetric: [propext, Classical.choice, Quot.sound]
AMPE.LevelSolve3.Props.c121_quat_zero_correction: [propext, Classical.choice, Quot.sound]
AMPE.LevelSolve3.Props.c121_columns: [propext, Classical.choice, Quot.sound]
AMPE.LevelSolve3.Props.c121_quat_columns: [propext, Classical.choice, Quot.sound]
AMPE.HandOver.Props.c122_exact_partial: [propext, Classical.choice, Quot.sound]
AMPE.HandOver.Props.c122_violation_thin_3d: [propext, Classical.choice, Quot.sound]
AMPE.HandOver.Props.c122_violation_column: [propext, Classical.choice, Quot.sound]
AMPE.HandOver.Props.c122_one_cell: [propext, Classical.choice, Quot.sound]
AMPE.HandOver.Props.c122_rows_3d: [propext, Classical.choice, Quot.sound]
AMPE.HandOver.Props.c122_rows_2d: [propext, Classical.choice, Quot.sound]
AMPE.HandOver.Props.c122_levels_2d_partial: [propext, Classical.choice, Quot.sound]
AMPE.HandOver.Props.c122_violation_accepted: [propext, Classical.choice, Quot.sound]
AMPE.HandOver.Props.c122_accepted_2d_partial: [propext, Classical.choice, Quot.sound]
AMPE.SolverMesh.Props.c123_start: [propext, Quot.sound]
AMPE.SolverMesh.Props.c123_follows_partial: [propext, Quot.sound]
AMPE.SolverMesh.Props.c123_violation_fewer_levels: [propext, Quot.sound]
AMPE.SolverMesh.Props.c123_violation_steady: [propext, Quot.sound]
AMPE.SolverMesh.Props.c123_repair_steady: [propext, Quot.sound]
AMPE.SolverMesh.Props.c123_violation_warm: [propext, Quot.sound]
AMPE.SolverMesh.Props.c123_violation_initialise_again: [propext]
AMPE.SolverMesh.Props.c123_violation_reset_range: [propext, Quot.sound]
AMPE.SolverMesh.Props.c123_once: [propext, Classical.choice, Quot.sound]
AMPE.SolverMesh.Props.c123_release: [propext, Quot.sound]
AMPE.SolverMesh.Props.c123_boundaries: [propext]
AMPE.MeltFlow.Props.c124_stack_phase_partial: [propext, Classical.choice, Quot.sound]
AMPE.MeltFlow.Props.c124_stack_delta: [propext, Classical.choice, Quot.sound]
AMPE.MeltFlow.Props.c124_violation_delta: [propext, Classical.choice, Quot.sound]
AMPE.MeltFlow.Props.c124_stack_heat: [propext, Classical.choice, Quot.sound]
AMPE.MeltFlow.Props.c124_stack_run_partial: [propext, Classical.choice, Quot.sound]
AMPE.MeltFlow.Props.c124_violation_delta_run: [propext, Classical.choice, Quot.sound]
AMPE.MeltFlow.Props.c124_stack_energy: [propext, Classical.choice, Quot.sound]
AMPE.MeltFlow.Props.c124_exchange_xy: [propext, Classical.choice, Quot.sound]
AMPE.MeltFlow.Props.c124_exchange_yz: [propext, Classical.choice, Quot.sound]
AMPE.MeltFlow.Props.c124_mirror: [propext, Classical.choice, Quot.sound]
AMPE.Coupling3.Props.c125_addresses: [propext, Quot.sound]
AMPE.Coupling3.Props.c125_addresses_distinct: [propext, Classical.choice, Quot.sound]
AMPE.Coupling3.Props.c125_beckermann_linear_partial: [propext, Classical.choice, Quot.sound]
AMPE.Coupling3.Props.c125_beckermann_zero_iff: [propext, Classical.choice, Quot.sound]
AMPE.Coupling3.Props.c125_beckermann_exchange_yz: [propext, Classical.choice, Quot.sound]
AMPE.Coupling3.Props.c125_violation_beckermann_exchange: [propext, Classical.choice, Quot.sound]
AMPE.Coupling3.Props.c125_beckermann_exchange_xz_partial: [propext, Classical.choice, Quot.sound]
AMPE.Coupling3.Props.c125_beckermann_layers: [propext, Classical.choice, Quot.sound]
AMPE.Coupling3.Props.c125_kks_two_cells: [propext, Classical.choice, Quot.sound]
AMPE.Coupling3.Props.c125_kks_liquid_cells: [propext, Classical.choice, Quot.sound]
AMPE.Coupling3.Props.c125_kks_linear: [propext, Classical.choice, Quot.sound]
AMPE.Coupling3.Props.c125_cell_addresses: [propext, Quot.sound]
AMPE.IntegratorNorm.Props.c126_krylov_same_norm: [propext, Classical.choice, Quot.sound]
AMPE.IntegratorNorm.Props.c126_units: [propext, Classical.choice, Quot.sound]
AMPE.IntegratorNorm.Props.c126_krylov_units: [propext, Classical.choice, Quot.sound]
AMPE.IntegratorNorm.Props.c126_covered_cells: [propext, Classical.choice, Quot.sound]
AMPE.IntegratorNorm.Props.c126_refinement: [propext, Classical.choice, Quot.sound]
AMPE.IntegratorNorm.Props.c126_error_per_field: [propext, Classical.choice, Quot.sound]
AMPE.IntegratorNorm.Props.c126_violation_single_cell: [propext, Classical.choice, Quot.sound]
AMPE.IntegratorNorm.Props.c126_violation_precond: [propext, Classical.choice, Quot.sound]
AMPE.IntegratorNorm.Props.c126_violation_precond_units: [propext, Classical.choice, Quot.sound]
AMPE.IntegratorNorm.Props.c126_precond_partial: [propext, Classical.choice, Quot.sound]
AMPE.IntegratorNorm.Props.c126_violation_precond_covered: [propext, Classical.choice, Quot.sound]
AMPE.QuatRefineFill.Props.c127_fill_partial: [propext, Classical.choice, Quot.sound]
AMPE.QuatRefineFill.Props.c127_violation_gap: [propext, Classical.choice, Quot.sound]
AMPE.QuatRefineFill.Props.c127_violation: [propext, Classical.choice, Quot.sound]
AMPE.QuatRefineFill.Props.c127_violation_thin: [propext, Classical.choice, Quot.sound]
AMPE.QuatRefineFill.Props.c127_violation_outcome_2d: [propext, Classical.choice, Quot.sound]
AMPE.QuatRefineFill.Props.c127_stencil_2d: [propext, Classical.choice, Quot.sound]
AMPE.HistoryField.Props.c128_file_node: [propext, Classical.choice, Quot.sound]
AMPE.HistoryField.Props.c128_violation_last_column: [propext, Classical.choice, Quot.sound]
AMPE.HistoryField.Props.c128_last_time: [propext, Classical.choice, Quot.sound]
AMPE.HistoryField.Props.c128_violation_increasing: [propext, Classical.choice, Quot.sound]
AMPE.HistoryField.Props.c128_comments: [propext, Classical.choice, Quot.sound]
AMPE.HistoryField.Props.c128_violation_blank_line: [propext, Classical.choice, Quot.sound]
AMPE.HistoryField.Props.c128_centre: [propext, Classical.choice, Quot.sound]
AMPE.HistoryField.Props.c128_continuous: [propext, Classical.choice, Quot.sound]
AMPE.HistoryField.Props.c128_laboratory: [propext, Classical.choice, Quot.sound]
AMPE.HistoryField.Props.c128_patch: [propext, Classical.choice, Quot.sound]
AMPE.HistoryField.Props.c128_violation_restart: [propext, Classical.choice, Quot.sound]
AMPE.HistoryField.Props.c128_average: [propext, Classical.choice, Quot.sound]
AMPE.AlloyPlacement.Props.c129_phase: [propext, Classical.choice, Quot.sound]
AMPE.AlloyPlacement.Props.c129_coeffs: [propext, Classical.choice, Quot.sound]
AMPE.AlloyPlacement.Props.c129_ebs: [propext, Classical.choice, Quot.sound]
AMPE.AlloyPlacement.Props.c129_kks: [propext, Classical.choice, Quot.sound]
AMPE.AlloyPlacement.Props.c129_solute: [propext, Classical.choice, Quot.sound]
AMPE.AlloyPlacement.Props.c129_energy: [propext, Classical.choice, Quot.sound]
AMPE.AlloyPlacement.Props.c129_run: [propext, Classical.choice, Quot.sound]
AMPE.AlloyPlacement.Props.c129_placements: [propext, Classical.choice, Quot.sound]
AMPE.InitMesh.Props.c130_base_level: [propext, Classical.choice, Quot.sound]
AMPE.InitMesh.Props.c130_one_level_partial: [propext, Classical.choice, Quot.sound]
AMPE.InitMesh.Props.c130_violation_mesh: [propext, Classical.choice, Quot.sound]
AMPE.InitMesh.Props.c130_violation_fine: [propext, Classical.choice, Quot.sound]
AMPE.InitMesh.Props.c130_violation_level: [propext, Classical.choice, Quot.sound]
AMPE.InitMesh.Props.c130_written_iff: [propext, Classical.choice, Quot.sound]
AMPE.InitMesh.Props.c130_written_covered: [propext, Classical.choice, Quot.sound]
AMPE.InitMesh.Props.c130_written_bounds: [propext, Classical.choice, Quot.sound]
AMPE.InitMesh.Props.c130_written_exact: [propext, Classical.choice, Quot.sound]
AMPE.InitMesh.Props.c130_written_linear_2d: [propext, Classical.choice, Quot.sound]
AMPE.InitMesh.Props.c130_written_linear_3d: [propext, Classical.choice, Quot.sound]
AMPE.InitMesh.Props.c130_violation_zero: [propext, Classical.choice, Quot.sound]
AMPE.InitMesh.Props.c130_violation_amount: [propext, Classical.choice, Quot.sound]
AMPE.InitMesh.Props.c130_violation_length: [propext, Classical.choice, Quot.sound]
AMPE.PhaseBounds.Props.c131_between_2d_partial: [propext, Classical.choice, Quot.sound]
AMPE.PhaseBounds.Props.c131_between_3d_partial: [propext, Classical.choice, Quot.sound]
AMPE.PhaseBounds.Props.c131_heat_2d: [propext, Classical.choice, Quot.sound]
AMPE.PhaseBounds.Props.c131_heat_3d: [propext, Classical.choice, Quot.sound]
AMPE.PhaseBounds.Props.c131_violation_linear: [propext, Classical.choice, Quot.sound]
AMPE.PhaseBounds.Props.c131_violation_orient_linear: [propext, Classical.choice, Quot.sound]
AMPE.PhaseBounds.Props.c131_violation_frame: [propext, Classical.choice, Quot.sound]
AMPE.PhaseBounds.Props.c131_violation_upwind: [propext, Classical.choice, Quot.sound]
AMPE.PhaseBounds.Props.c131_violation_aspect: [propext, Classical.choice, Quot.sound]
AMPE.PhaseBounds.Props.c131_melting_sign: [propext, Classical.choice, Quot.sound]
AMPE.ThreeBounds.Props.c132_fractions_2d_partial: [propext, Classical.choice, Quot.sound]
AMPE.ThreeBounds.Props.c132_absent_2d_partial: [propext, Classical.choice, Quot.sound]
AMPE.ThreeBounds.Props.c132_fractions_3d_partial: [propext, Classical.choice, Quot.sound]
AMPE.ThreeBounds.Props.c132_absent_3d_partial: [propext, Classical.choice, Quot.sound]
AMPE.ThreeBounds.Props.c132_exchange: [propext, Classical.choice, Quot.sound]
AMPE.ThreeBounds.Props.c132_moelans: [propext, Classical.choice, Quot.sound]
AMPE.ThreeBounds.Props.c132_violation_upwind: [propext, Classical.choice, Quot.sound]
AMPE.MultiBounds.Props.c133_nonneg_2d_partial: [propext, Classical.choice, Quot.sound]
AMPE.MultiBounds.Props.c133_nonneg_3d_partial: [propext, Classical.choice, Quot.sound]
AMPE.MultiBounds.Props.c133_below_one_2d_partial: [propext, Classical.choice, Quot.sound]
AMPE.MultiBounds.Props.c133_below_one_3d_partial: [propext, Classical.choice, Quot.sound]
AMPE.MultiBounds.Props.c133_sinter_2d_partial: [propext, Classical.choice, Quot.sound]
AMPE.MultiBounds.Props.c133_sinter_3d_partial: [propext, Classical.choice, Quot.sound]
AMPE.MultiBounds.Props.c133_violation_above: [propext, Classical.choice, Quot.sound]
AMPE.MultiBounds.Props.c133_violation_upwind: [propext, Classical.choice, Quot.sound]
AMPE.SoluteBounds.Props.c134_nonneg_2d_partial: [propext, Classical.choice, Quot.sound]
AMPE.SoluteBounds.Props.c134_nonneg_3d_partial: [propext, Classical.choice, Quot.sound]
AMPE.SoluteBounds.Props.c134_range_2d_partial: [propext, Classical.choice, Quot.sound]
AMPE.SoluteBounds.Props.c134_kks_2d_partial: [propext, Classical.choice, Quot.sound]
AMPE.SoluteBounds.Props.c134_kks_3d_partial: [propext, Classical.choice, Quot.sound]
AMPE.SoluteBounds.Props.c134_split: [propext, Classical.choice, Quot.sound]
AMPE.SoluteBounds.Props.c134_violation_order4: [propext, Classical.choice, Quot.sound]
AMPE.SoluteBounds.Props.c134_violation_isotropic: [propext, Classical.choice, Quot.sound]
AMPE.SoluteBounds.Props.c134_violation_antitrap: [propext, Classical.choice, Quot.sound]
AMPE.SoluteBounds.Props.c134_violation_antitrap_y: [propext, Classical.choice, Quot.sound]
AMPE.SoluteBounds.Props.c134_violation_cross: [propext, Classical.choice, Quot.sound]
AMPE.SoluteBounds.Props.c134_violation_frame: [propext, Classical.choice, Quot.sound]
AMPE.SoluteBounds.Props.c134_violation_upper: [propext, Classical.choice, Quot.sound]
AMPE.SoluteBounds.Props.c134_violation_kks_linear: [propext, Classical.choice, Quot.sound]
AMPE.TempReport.Props.c135_prescribed: [propext, Classical.choice, Quot.sound]
AMPE.TempReport.Props.c135_prescribed_fixed: [propext, Classical.choice, Quot.sound]
AMPE.TempReport.Props.c135_uniform_fixed: [propext, Classical.choice, Quot.sound]
AMPE.TempReport.Props.c135_file: [propext, Classical.choice, Quot.sound]
AMPE.TempReport.Props.c135_shown_is_used_partial: [propext, Classical.choice, Quot.sound]
AMPE.TempReport.Props.c135_unsteady_trials: [propext, Classical.choice, Quot.sound]
AMPE.TempReport.Props.c135_printed_uniform: [propext, Classical.choice, Quot.sound]
AMPE.TempReport.Props.c135_printed: [propext, Classical.choice, Quot.sound]
AMPE.TempReport.Props.c135_printed_gradient: [propext, Classical.choice, Quot.sound]
AMPE.TempReport.Props.c135_violation_gradient_mean: [propext, Classical.choice, Quot.sound]
AMPE.TempReport.Props.c135_violation_steady: [propext, Classical.choice, Quot.sound]
AMPE.TempReport.Props.c135_steady_used: [propext, Classical.choice, Quot.sound]
AMPE.TempReport.Props.c135_violation_steady_printed: [propext, Classical.choice, Quot.sound]
AMPE.HeatOrder.Props.c136_order_2d_partial: [propext, Classical.choice, Quot.sound]
AMPE.HeatOrder.Props.c136_order_3d_partial: [propext, Classical.choice, Quot.sound]
AMPE.HeatOrder.Props.c136_unique_2d_partial: [propext, Classical.choice, Quot.sound]
AMPE.HeatOrder.Props.c136_floor_2d_partial: [propext, Classical.choice, Quot.sound]
AMPE.HeatOrder.Props.c136_ceiling_2d_partial: [propext, Classical.choice, Quot.sound]
AMPE.HeatOrder.Props.c136_violation_frame: [propext, Classical.choice, Quot.sound]
AMPE.HeatOrder.Props.c136_violation_upwind: [propext, Classical.choice, Quot.sound]
AMPE.HeatOrder.Props.c136_steady_order: [propext, Classical.choice, Quot.sound]
AMPE.HeatOrder.Props.c136_steady_unique: [propext, Classical.choice, Quot.sound]
AMPE.HeatOrder.Props.c136_steady_exists: [propext, Classical.choice, Quot.sound]
AMPE.HeatOrder.Props.c136_closed_balance: [propext, Classical.choice, Quot.sound]
AMPE.HeatOrder.Props.c136_violation_closed: [propext, Classical.choice, Quot.sound]
AMPE.HeatOrder.Props.c136_violation_level: [propext, Classical.choice, Quot.sound]
AMPE.Observe.Props.c137_rate: [propext, Classical.choice, Quot.sound]
AMPE.Observe.Props.c137_run_partial: [propext, Classical.choice, Quot.sound]
AMPE.Observe.Props.c137_results_partial: [propext, Classical.choice, Quot.sound]
AMPE.Observe.Props.c137_setup_first: [propext, Classical.choice, Quot.sound]
AMPE.Observe.Props.c137_violation_constant: [propext, Classical.choice, Quot.sound]
AMPE.Observe.Props.c137_guess_exact: [propext, Classical.choice, Quot.sound]
AMPE.Observe.Props.c137_violation_guess: [propext, Classical.choice, Quot.sound]
AMPE.Observe.Props.c137_violation_guess_current: [propext, Classical.choice, Quot.sound]
AMPE.Observe.Props.c137_violation_stop: [propext, Classical.choice, Quot.sound]
AMPE.Observe.Props.c137_violation_file: [propext, Classical.choice, Quot.sound]
AMPE.MobilityFile.Props.c138_read_partial: [propext, Classical.choice, Quot.sound]
AMPE.MobilityFile.Props.c138_count: [propext, Classical.choice, Quot.sound]
AMPE.MobilityFile.Props.c138_violation_fourth: [propext, Classical.choice, Quot.sound]
AMPE.MobilityFile.Props.c138_violation_gap: [propext, Classical.choice, Quot.sound]
AMPE.MobilityFile.Props.c138_violation_three: [propext, Classical.choice, Quot.sound]
AMPE.MobilityFile.Props.c138_violation_ternary: [propext, Classical.choice, Quot.sound]
AMPE.MobilityFile.Props.c138_temperatures: [propext, Classical.choice, Quot.sound]
AMPE.MobilityFile.Props.c138_entry: [propext, Classical.choice, Quot.sound]
AMPE.MobilityFile.Props.c138_table_partial: [propext, Classical.choice, Quot.sound]
AMPE.MobilityFile.Props.c138_violation_liquid: [propext, Classical.choice, Quot.sound]
AMPE.GrainFlow.Props.c139_balance: [propext, Classical.choice, Quot.sound]
AMPE.GrainFlow.Props.c139_monotone_partial: [propext, Classical.choice, Quot.sound]
AMPE.GrainFlow.Props.c139_rest_partial: [propext, Classical.choice, Quot.sound]
AMPE.GrainFlow.Props.c139_no_cycle_partial: [propext, Classical.choice, Quot.sound]
AMPE.GrainFlow.Props.c139_balance_3d: [propext, Classical.choice, Quot.sound]
AMPE.GrainFlow.Props.c139_monotone_3d_partial: [propext, Classical.choice, Quot.sound]
AMPE.GrainFlow.Props.c139_violation_reported: [propext, Classical.choice, Quot.sound]
AMPE.GrainFlow.Props.c139_violation_grows: [propext, Classical.choice, Quot.sound]
AMPE.GrainFlow.Props.c139_violation_documented_rate: [propext, Classical.choice, Quot.sound]
AMPE.GrainFlow.Props.c139_violation_documented: [propext, Classical.choice, Quot.sound]
AMPE.Convergence.Props.c140_phase_2d: [propext, Classical.choice, Quot.sound]
AMPE.Convergence.Props.c140_second_order: [propext, Classical.choice, Quot.sound]
AMPE.Convergence.Props.c140_heat_2d: [propext, Classical.choice, Quot.sound]
AMPE.Convergence.Props.c140_phase_3d: [propext, Classical.choice, Quot.sound]
AMPE.Convergence.Props.c140_heat_3d: [propext, Classical.choice, Quot.sound]
AMPE.Drivers.Props.c141_binary_table_partial: [propext, Classical.choice, Quot.sound]
AMPE.Drivers.Props.c141_rows_equilibria: [propext, Classical.choice, Quot.sound]
AMPE.Drivers.Props.c141_violation_repeated_composition: [propext, Classical.choice, Quot.sound]
AMPE.Drivers.Props.c141_violation_range: [propext, Classical.choice, Quot.sound]
AMPE.Drivers.Props.c141_ternary_table: [propext, Classical.choice, Quot.sound]
AMPE.Drivers.Props.c141_violation_ternary_unphysical: [propext, Classical.choice, Quot.sound]
AMPE.Drivers.Props.c141_equilibrium_report: [propext, Classical.choice, Quot.sound]
AMPE.Drivers.Props.c141_violation_solid_curvature: [propext, Classical.choice, Quot.sound]
AMPE.Drivers.Props.c141_zeta_of_run: [propext, Classical.choice, Quot.sound]
AMPE.Drivers.Props.c141_violation_zeta_of_failure: [propext, Classical.choice, Quot.sound]
AMPE.Nuclei.Props.c142_distance: [propext, Classical.choice, Quot.sound]
AMPE.Nuclei.Props.c142_violation_periodic: [propext, Classical.choice, Quot.sound]
AMPE.Nuclei.Props.c142_phase_sharp: [propext, Classical.choice, Quot.sound]
AMPE.Nuclei.Props.c142_violation_disc: [propext, Classical.choice, Quot.sound]
AMPE.Nuclei.Props.c142_apart: [propext, Classical.choice, Quot.sound]
AMPE.Nuclei.Props.c142_solid_volume_partial: [propext, Classical.choice, Quot.sound]
AMPE.Nuclei.Props.c142_violation_overlap: [propext, Classical.choice, Quot.sound]
AMPE.Nuclei.Props.c142_nominal_partial: [propext, Classical.choice, Quot.sound]
AMPE.Nuclei.Props.c142_violation_nominal: [propext, Classical.choice, Quot.sound]
AMPE.Nuclei.Props.c142_violation_negative: [propext, Classical.choice, Quot.sound]
AMPE.Nuclei.Props.c142_violation_options: [propext, Classical.choice, Quot.sound]
AMPE.Nuclei.Props.c142_separated: [propext, Classical.choice, Quot.sound]
AMPE.Nuclei.Props.c142_violation_never_ends: [propext, Classical.choice, Quot.sound]
AMPE.Nuclei.Props.c142_push: [propext, Classical.choice, Quot.sound]
AMPE.Nuclei.Props.c142_nearest_partial: [propext, Classical.choice, Quot.sound]
AMPE.Nuclei.Props.c142_violation_two_nuclei: [propext, Classical.choice, Quot.sound]
AMPE.Nuclei.Props.c142_violation_quat_out: [propext, Classical.choice, Quot.sound]
AMPE.Nuclei.Props.c142_unit: [propext, Classical.choice, Quot.sound]
AMPE.Nuclei.Props.c142_violation_angle: [propext, Classical.choice, Quot.sound]
AMPE.Dependence.Props.c143_phase_2d: [propext, Classical.choice, Quot.sound]
AMPE.Dependence.Props.c143_unique_2d: [propext, Classical.choice, Quot.sound]
AMPE.Dependence.Props.c143_phase_3d: [propext, Classical.choice, Quot.sound]
AMPE.Dependence.Props.c143_unique_3d: [propext, Classical.choice, Quot.sound]
AMPE.Dependence.Props.c143_heat_2d: [propext, Classical.choice, Quot.sound]
AMPE.Dependence.Props.c143_heat_3d: [propext, Classical.choice, Quot.sound]
AMPE.Dependence.Props.c143_grains_2d: [propext, Classical.choice, Quot.sound]
AMPE.Bilayer.Props.c144_phase_range: [propext, Classical.choice, Quot.sound]
AMPE.Bilayer.Props.c144_one_layer: [propext, Classical.choice, Quot.sound]
AMPE.Bilayer.Props.c144_two_layers_partial: [propext, Classical.choice, Quot.sound]
AMPE.Bilayer.Props.c144_violation_two_across_z: [propext, Classical.choice, Quot.sound]
AMPE.Bilayer.Props.c144_violation_cut: [propext, Classical.choice, Quot.sound]
AMPE.Bilayer.Props.c144_composition: [propext, Classical.choice, Quot.sound]
AMPE.Bilayer.Props.c144_nominal_partial: [propext, Classical.choice, Quot.sound]
AMPE.Bilayer.Props.c144_violation_odd: [propext, Classical.choice, Quot.sound]
AMPE.Bilayer.Props.c144_violation_default_radius: [propext, Classical.choice, Quot.sound]
AMPE.Bilayer.Props.c144_two_nominal_partial: [propext, Classical.choice, Quot.sound]
AMPE.Bilayer.Props.c144_violation_nominal_alone: [propext, Classical.choice, Quot.sound]
AMPE.Bilayer.Props.c144_violation_outside: [propext, Classical.choice, Quot.sound]
AMPE.Bilayer.Props.c144_violation_orientation_outside: [propext, Classical.choice, Quot.sound]
AMPE.Bilayer.Props.c144_angle: [propext, Classical.choice, Quot.sound]
AMPE.Bilayer.Props.c144_angle_between: [propext, Classical.choice, Quot.sound]
AMPE.Bilayer.Props.c144_orientation_sharp: [propext, Classical.choice, Quot.sound]
AMPE.Bilayer.Props.c144_violation_length: [propext, Classical.choice, Quot.sound]
AMPE.Bilayer.Props.c144_gradient: [propext, Classical.choice, Quot.sound]
AMPE.Bilayer.Props.c144_violation_gauss: [propext, Classical.choice, Quot.sound]
AMPE.PyQuat.Props.c145_table: [propext, Classical.choice, Quot.sound]
AMPE.PyQuat.Props.c145_conjugate_partial: [propext, Classical.choice, Quot.sound]
AMPE.PyQuat.Props.c145_violation_conjugate: [propext, Classical.choice, Quot.sound]
AMPE.PyQuat.Props.c145_violation_index: [propext, Classical.choice, Quot.sound]
AMPE.PyQuat.Props.c145_search4_partial: [propext, Classical.choice, Quot.sound]
AMPE.PyQuat.Props.c145_nearest4: [propext, Classical.choice, Quot.sound]
AMPE.PyQuat.Props.c145_fundamental: [propext, Classical.choice, Quot.sound]
AMPE.PyQuat.Props.c145_nearest2: [propext, Classical.choice, Quot.sound]
AMPE.PyQuat.Props.c145_violation_angle: [propext, Classical.choice, Quot.sound]
AMPE.PyQuat.Props.c145_angle: [propext, Classical.choice, Quot.sound]
AMPE.PyQuat.Props.c145_angle2: [propext, Classical.choice, Quot.sound]
AMPE.MeltExist.Props.c146_exists_2d: [propext, Classical.choice, Quot.sound]
AMPE.MeltExist.Props.c146_unique_2d: [propext, Classical.choice, Quot.sound]
AMPE.MeltExist.Props.c146_exists_3d: [propext, Classical.choice, Quot.sound]
AMPE.MeltExist.Props.c146_unique_3d: [propext, Classical.choice, Quot.sound]
AMPE.CommandLine.Props.c147_names_partial: [propext, Classical.choice, Quot.sound]
AMPE.CommandLine.Props.c147_names_given: [propext, Classical.choice, Quot.sound]
AMPE.CommandLine.Props.c147_violation_root: [propext, Classical.choice, Quot.sound]
AMPE.CommandLine.Props.c147_violation_shared: [propext, Classical.choice, Quot.sound]
AMPE.CommandLine.Props.c147_fresh: [propext]
AMPE.CommandLine.Props.c147_restart_partial: [propext, Classical.choice, Quot.sound]
AMPE.CommandLine.Props.c147_blanks: [propext, Classical.choice, Quot.sound]
AMPE.CommandLine.Props.c147_violation_negative: [propext, Classical.choice, Quot.sound]
AMPE.CommandLine.Props.c147_violation_text: [propext, Classical.choice, Quot.sound]
AMPE.CommandLine.Props.c147_violation_usage: [propext, Quot.sound]
AMPE.CommandLine.Props.c147_model: [propext, Classical.choice, Quot.sound]
AMPE.BoundaryGrains.Props.c148_phase_range: [propext, Classical.choice, Quot.sound]
AMPE.BoundaryGrains.Props.c148_front: [propext, Classical.choice, Quot.sound]
AMPE.BoundaryGrains.Props.c148_fraction_partial: [propext, Classical.choice, Quot.sound]
AMPE.BoundaryGrains.Props.c148_violation_fraction: [propext, Classical.choice, Quot.sound]
AMPE.BoundaryGrains.Props.c148_mean: [propext, Classical.choice, Quot.sound]
AMPE.BoundaryGrains.Props.c148_mean_partial: [propext, Classical.choice, Quot.sound]
AMPE.BoundaryGrains.Props.c148_violation_mean: [propext, Classical.choice, Quot.sound]
AMPE.BoundaryGrains.Props.c148_violation_liquid: [propext, Classical.choice, Quot.sound]
AMPE.BoundaryGrains.Props.c148_liquid: [propext, Classical.choice, Quot.sound]
AMPE.BoundaryGrains.Props.c148_grain: [propext, Classical.choice, Quot.sound]
AMPE.BoundaryGrains.Props.c148_grain_partial: [propext, Classical.choice, Quot.sound]
AMPE.BoundaryGrains.Props.c148_violation_border: [propext, Classical.choice, Quot.sound]
AMPE.BoundaryGrains.Props.c148_violation_plane: [propext, Classical.choice, Quot.sound]
AMPE.BoundaryGrains.Props.c148_smooth_range: [propext, Classical.choice, Quot.sound]
AMPE.BoundaryGrains.Props.c148_smooth_partial: [propext, Classical.choice, Quot.sound]
AMPE.BoundaryGrains.Props.c148_violation_smooth: [propext, Classical.choice, Quot.sound]
AMPE.BoundaryGrains.Props.c148_smooth_wraps: [propext, Classical.choice, Quot.sound]
AMPE.BoundaryGrains.Props.c148_smooth_wraps_z: [propext, Classical.choice, Quot.sound]
AMPE.BoundaryGrains.Props.c148_smooth_flat: [propext, Classical.choice, Quot.sound]
AMPE.MultiSpheres.Props.c149_distance: [propext, Classical.choice, Quot.sound]
AMPE.MultiSpheres.Props.c149_violation_periodic: [propext, Classical.choice, Quot.sound]
AMPE.MultiSpheres.Props.c149_axis_distance: [propext, Classical.choice, Quot.sound]
AMPE.MultiSpheres.Props.c149_filled: [propext, Classical.choice, Quot.sound]
AMPE.MultiSpheres.Props.c149_sphere_partial: [propext, Classical.choice, Quot.sound]
AMPE.MultiSpheres.Props.c149_violation_flat: [propext, Classical.choice, Quot.sound]
AMPE.MultiSpheres.Props.c149_phase_range: [propext, Classical.choice, Quot.sound]
AMPE.MultiSpheres.Props.c149_profile: [propext, Classical.choice, Quot.sound]
AMPE.MultiSpheres.Props.c149_sum: [propext, Classical.choice, Quot.sound]
AMPE.MultiSpheres.Props.c149_liquid: [propext, Classical.choice, Quot.sound]
AMPE.MultiSpheres.Props.c149_composition: [propext, Classical.choice, Quot.sound]
AMPE.MultiSpheres.Props.c149_violation_b: [propext, Classical.choice, Quot.sound]
AMPE.MultiSpheres.Props.c149_violation_species: [propext, Classical.choice, Quot.sound]
AMPE.MultiSpheres.Props.c149_species_le: [propext, Classical.choice, Quot.sound]
AMPE.Sphere.Props.c150_one: [propext, Classical.choice, Quot.sound]
AMPE.Sphere.Props.c150_writes_partial: [propext, Classical.choice, Quot.sound]
AMPE.Sphere.Props.c150_symmetric: [propext, Classical.choice, Quot.sound]
AMPE.Sphere.Props.c150_violation_shift: [propext, Classical.choice, Quot.sound]
AMPE.Sphere.Props.c150_violation_two: [propext, Classical.choice, Quot.sound]
AMPE.Sphere.Props.c150_violation_emptied: [propext, Classical.choice, Quot.sound]
AMPE.Sphere.Props.c150_violation_quat: [propext, Classical.choice, Quot.sound]
AMPE.Sphere.Props.c150_angle4: [propext, Classical.choice, Quot.sound]
AMPE.Sphere.Props.c150_angle1: [propext, Classical.choice, Quot.sound]
AMPE.Sphere.Props.c150_violation_half: [propext, Classical.choice, Quot.sound]
AMPE.Sphere.Props.c150_violation_sign: [propext, Classical.choice, Quot.sound]
AMPE.Sphere.Props.c150_random: [propext, Classical.choice, Quot.sound]
AMPE.Sphere.Props.c150_random_radius: [propext, Classical.choice, Quot.sound]
AMPE.Sphere.Props.c150_violation_random: [propext, Classical.choice, Quot.sound]
AMPE.Sphere.Props.c150_size: [propext, Quot.sound]
AMPE.Sphere.Props.c150_angles_one: [propext, Classical.choice, Quot.sound]
AMPE.Sphere.Props.c150_angle_used: [propext, Classical.choice, Quot.sound]
AMPE.Sphere.Props.c150_round_half: [propext, Classical.choice, Quot.sound]
AMPE.MeltRest.Props.c151_rest_partial: [propext, Classical.choice, Quot.sound]
AMPE.MeltRest.Props.c151_temperature_partial: [propext, Classical.choice, Quot.sound]
AMPE.MeltRest.Props.c151_limit_partial: [propext, Classical.choice, Quot.sound]
AMPE.MeltRest.Props.c151_isothermal: [propext, Classical.choice, Quot.sound]
AMPE.MeltRest.Props.c151_rest3_partial: [propext, Classical.choice, Quot.sound]
AMPE.MeltRest.Props.c151_limit3_partial: [propext, Classical.choice, Quot.sound]
AMPE.MeltRest.Props.c151_isothermal3: [propext, Classical.choice, Quot.sound]
AMPE.GrainRest.Props.c152_rest_partial: [propext, Classical.choice, Quot.sound]
AMPE.GrainRest.Props.c152_growth: [propext, Classical.choice, Quot.sound]
AMPE.GrainRest.Props.c152_rest3_partial: [propext, Classical.choice, Quot.sound]
AMPE.GrainRest.Props.c152_growth3: [propext, Classical.choice, Quot.sound]
AMPE.GrainExist.Props.c153_exists: [propext, Classical.choice, Quot.sound]
AMPE.GrainExist.Props.c153_unique: [propext, Classical.choice, Quot.sound]
AMPE.GrainExist.Props.c153_rests: [propext, Classical.choice, Quot.sound]
AMPE.GrainExist.Props.c153_exists3: [propext, Classical.choice, Quot.sound]
AMPE.GrainExist.Props.c153_unique3: [propext, Classical.choice, Quot.sound]
AMPE.GrainExist.Props.c153_rests3: [propext, Classical.choice, Quot.sound]
AMPE.Corners.Props.c154_phase: [propext, Classical.choice, Quot.sound]
AMPE.Corners.Props.c154_solid_filled: [propext, Classical.choice, Quot.sound]
AMPE.Corners.Props.c154_quarters_partial: [propext, Classical.choice, Quot.sound]
AMPE.Corners.Props.c154_violation_left: [propext, Classical.choice, Quot.sound]
AMPE.Corners.Props.c154_violation_border: [propext, Classical.choice, Quot.sound]
AMPE.Corners.Props.c154_violation_flat: [propext, Classical.choice, Quot.sound]
AMPE.Corners.Props.c154_violation_length: [propext, Classical.choice, Quot.sound]
AMPE.Corners.Props.c154_violation_deep: [propext, Classical.choice, Quot.sound]
AMPE.Corners.Props.c154_runs: [propext, Classical.choice, Quot.sound]
AMPE.GrainWalls.Props.c155_exists: [propext, Classical.choice, Quot.sound]
AMPE.GrainWalls.Props.c155_unique: [propext, Classical.choice, Quot.sound]
AMPE.GrainWalls.Props.c155_rests: [propext, Classical.choice, Quot.sound]
AMPE.GrainWalls.Props.c155_exists3: [propext, Classical.choice, Quot.sound]
AMPE.GrainWalls.Props.c155_unique3: [propext, Classical.choice, Quot.sound]
AMPE.GrainWalls.Props.c155_rests3: [propext, Classical.choice, Quot.sound]
AMPE.Substitute.Props.c156_once_partial: [propext, Quot.sound]
AMPE.Substitute.Props.c156_violation_repeated: [propext, Quot.sound]
AMPE.Substitute.Props.c156_violation_wanted: [propext, Quot.sound]
AMPE.Substitute.Props.c156_violation_blanks: [propext, Quot.sound]
AMPE.Substitute.Props.c156_short: [propext]
AMPE.VolFrac.Props.c157_log: [propext, Classical.choice, Quot.sound]
AMPE.VolFrac.Props.c157_table_partial: [propext, Classical.choice, Quot.sound]
AMPE.VolFrac.Props.c157_fresh: [propext, Classical.choice, Quot.sound]
AMPE.VolFrac.Props.c157_violation_far: [propext, Classical.choice, Quot.sound]
AMPE.VolFrac.Props.c157_violation_cut: [propext, Classical.choice, Quot.sound]
AMPE.MeltHistory.Props.c158_exists: [propext, Classical.choice, Quot.sound]
AMPE.MeltHistory.Props.c158_unique: [propext, Classical.choice, Quot.sound]
AMPE.MeltHistory.Props.c158_rests: [propext, Classical.choice, Quot.sound]
AMPE.MeltHistory.Props.c158_exists3: [propext, Classical.choice, Quot.sound]
AMPE.MeltHistory.Props.c158_unique3: [propext, Classical.choice, Quot.sound]
AMPE.MeltHistory.Props.c158_rests3: [propext, Classical.choice, Quot.sound]
AMPE.MeltWalls.Props.c159_exists: [propext, Classical.choice, Quot.sound]
AMPE.MeltWalls.Props.c159_unique: [propext, Classical.choice, Quot.sound]
AMPE.MeltWalls.Props.c159_rests: [propext, Classical.choice, Quot.sound]
AMPE.MeltWalls.Props.c159_exists3: [propext, Classical.choice, Quot.sound]
AMPE.MeltWalls.Props.c159_unique3: [propext, Classical.choice, Quot.sound]
AMPE.MeltWalls.Props.c159_rests3: [propext, Classical.choice, Quot.sound]
AMPE.GrainScripts.Props.c160_table: [propext, Classical.choice, Quot.sound]
AMPE.GrainScripts.Props.c160_history_partial: [propext, Classical.choice, Quot.sound]
AMPE.GrainScripts.Props.c160_all: [propext, Quot.sound]
AMPE.GrainScripts.Props.c160_violation_returns: [propext, Classical.choice, Quot.sound]
AMPE.GrainScripts.Props.c160_violation_no_cycle: [propext, Classical.choice, Quot.sound]
AMPE.GrainScripts.Props.c160_violation_coring: [propext, Classical.choice, Quot.sound]
AMPE.GrainScripts.Props.c161_stored_partial: [propext, Classical.choice, Quot.sound]
AMPE.GrainScripts.Props.c161_violation_next: [propext, Classical.choice, Quot.sound]
AMPE.GrainScripts.Props.c161_violation_last: [propext, Classical.choice, Quot.sound]
AMPE.GrainScripts.Props.c161_shares: [propext, Classical.choice, Quot.sound]
AMPE.CalphadFile.Props.c162_input: [propext, Classical.choice, Quot.sound]
AMPE.CalphadFile.Props.c162_json_partial: [propext, Classical.choice, Quot.sound]
AMPE.CalphadFile.Props.c162_violation_json: [propext, Classical.choice, Quot.sound]
AMPE.CalphadFile.Props.c162_violation_short: [propext, Classical.choice, Quot.sound]
AMPE.CalphadFile.Props.c162_violation_name: [propext, Classical.choice, Quot.sound]
AMPE.CalphadFile.Props.c162_violation_newton: [propext, Classical.choice, Quot.sound]
AMPE.Profiles.Props.c163_ramp: [propext, Classical.choice, Quot.sound]
AMPE.Profiles.Props.c163_ramp_mean: [propext, Classical.choice, Quot.sound]
AMPE.Profiles.Props.c163_tent_partial: [propext, Classical.choice, Quot.sound]
AMPE.Profiles.Props.c163_mirror_partial: [propext, Classical.choice, Quot.sound]
AMPE.Profiles.Props.c163_violation_odd: [propext, Classical.choice, Quot.sound]
AMPE.Profiles.Props.c163_violation_single: [propext, Classical.choice, Quot.sound]
AMPE.Bain.Props.c164_distance: [propext, Classical.choice, Quot.sound]
AMPE.Bain.Props.c164_sphere_partial: [propext, Classical.choice, Quot.sound]
AMPE.Bain.Props.c164_inside: [propext, Classical.choice, Quot.sound]
AMPE.Bain.Props.c164_violation_cut: [propext, Classical.choice, Quot.sound]
AMPE.Bain.Props.c164_fields: [propext, Classical.choice, Quot.sound]
AMPE.Bain.Props.c164_owner: [propext, Classical.choice, Quot.sound]
AMPE.Bain.Props.c164_violation_nominal: [propext, Classical.choice, Quot.sound]
AMPE.Bain.Props.c164_nominal_partial: [propext, Classical.choice, Quot.sound]
AMPE.Bain.Props.c164_violation_negative: [propext, Classical.choice, Quot.sound]
AMPE.Bain.Props.c164_apart: [propext, Classical.choice, Quot.sound]
AMPE.Bain.Props.c164_variants: [propext, Classical.choice, Quot.sound]
AMPE.Bain.Props.c164_three: [propext, Classical.choice, Quot.sound]
AMPE.Bain.Props.c164_violation_qlen: [propext, Classical.choice, Quot.sound]
AMPE.LinePlot.Props.c165_points_partial: [propext, Classical.choice, Quot.sound]
AMPE.LinePlot.Props.c165_violation_first: [propext, Classical.choice, Quot.sound]
AMPE.LinePlot.Props.c165_violation_short: [propext, Classical.choice, Quot.sound]
AMPE.LinePlot.Props.c165_violation_python3: [propext, Classical.choice, Quot.sound]
AMPE.LinePlot.Props.c165_labels_partial: [propext, Classical.choice, Quot.sound]
AMPE.LinePlot.Props.c165_violation_labels: [propext, Classical.choice, Quot.sound]
AMPE.OptionalBlocks.Props.c166_flags_partial: [propext, Classical.choice, Quot.sound]
AMPE.OptionalBlocks.Props.c166_violation_flags: [propext, Classical.choice, Quot.sound]
AMPE.OptionalBlocks.Props.c166_start_iff: [propext, Classical.choice, Quot.sound]
AMPE.OptionalBlocks.Props.c166_violation_velocity: [propext, Classical.choice, Quot.sound]
AMPE.OptionalBlocks.Props.c166_violation_velocity_off: [propext, Classical.choice, Quot.sound]
AMPE.OptionalBlocks.Props.c166_symmetry_iff: [propext, Classical.choice, Quot.sound]
AMPE.OptionalBlocks.Props.c166_violation_symmetry: [propext, Classical.choice, Quot.sound]
AMPE.OptionalBlocks.Props.c166_fundamental_safe: [propext, Classical.choice, Quot.sound]
AMPE.OptionalBlocks.Props.c166_numbering: [propext, Classical.choice, Quot.sound]
AMPE.OptionalBlocks.Props.c166_reset_iff: [propext, Classical.choice, Quot.sound]
AMPE.OptionalBlocks.Props.c166_violation_reset: [propext, Classical.choice, Quot.sound]
AMPE.OptionalBlocks.Props.c166_advance_iff: [propext, Classical.choice, Quot.sound]
AMPE.OptionalBlocks.Props.c166_violation_anisotropy: [propext, Classical.choice, Quot.sound]
AMPE.OptionalBlocks.Props.c166_advance_entries: [propext, Classical.choice, Quot.sound]
AMPE.OptionalBlocks.Props.c166_grains_partial: [propext, Classical.choice, Quot.sound]
AMPE.OptionalBlocks.Props.c166_rigid_off: [propext, Classical.choice, Quot.sound]
AMPE.OptionalBlocks.Props.c166_rigid_partial: [propext, Classical.choice, Quot.sound]
AMPE.OptionalBlocks.Props.c166_violation_rigid: [propext, Classical.choice, Quot.sound]
AMPE.OptionalBlocks.Props.c166_rigid_single: [propext, Classical.choice, Quot.sound]
AMPE.OptionalBlocks.Props.c166_rigid_refused: [propext, Classical.choice, Quot.sound]
AMPE.TempInput.Props.c167_type_partial: [propext, Classical.choice, Quot.sound]
AMPE.TempInput.Props.c167_default: [propext, Classical.choice, Quot.sound]
AMPE.TempInput.Props.c167_violation_file: [propext, Classical.choice, Quot.sound]
AMPE.TempInput.Props.c167_method_iff: [propext, Classical.choice, Quot.sound]
AMPE.TempInput.Props.c167_violation_method: [propext, Classical.choice, Quot.sound]
AMPE.TempInput.Props.c167_steady_iff: [propext, Classical.choice, Quot.sound]
AMPE.TempInput.Props.c167_violation_source: [propext, Classical.choice, Quot.sound]
AMPE.TempInput.Props.c167_violation_solver: [propext, Classical.choice, Quot.sound]
AMPE.TempInput.Props.c167_violation_unchecked: [propext, Classical.choice, Quot.sound]
AMPE.TempInput.Props.c167_volume: [propext, Classical.choice, Quot.sound]
AMPE.TempInput.Props.c167_value_partial: [propext, Classical.choice, Quot.sound]
AMPE.TempInput.Props.c167_value_iff: [propext, Classical.choice, Quot.sound]
AMPE.TempInput.Props.c167_violation_names: [propext, Classical.choice, Quot.sound]

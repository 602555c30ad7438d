{
 "claims": [
  {
   "property": "C01",
   "status": "proved",
   "theorems": [
    "AMPE.EventInterval.Props.c01_step_schedule",
    "AMPE.EventInterval.Props.c01_step_schedule_primed",
    "AMPE.EventInterval.Props.c01_yes_is_remembered"
   ],
   "note": "Step schedules, unprimed and primed; for any poll history with increasing non-negative times."
  },
  {
   "property": "C02",
   "status": "proved",
   "theorems": [
    "AMPE.EventInterval.Props.c02_time_schedule",
    "AMPE.EventInterval.Props.c02_no_multiple_skipped",
    "AMPE.EventInterval.Props.c02_unprimed_first_crossing_lost",
    "AMPE.EventInterval.Props.c02_overflow_is_undefined",
    "AMPE.EventInterval.Props.c02_default_interval",
    "AMPE.EventInterval.Props.c02_input_interval"
   ],
   "note": "Primed time schedules fire exactly on crossings; the unprimed loss of the first crossing and the int overflow limit are proved as separate theorems."
  },
  {
   "property": "C03",
   "status": "proved",
   "theorems": [
    "AMPE.EventInterval.Props.c03_no_double_event",
    "AMPE.EventInterval.Props.c03_one_event_per_time",
    "AMPE.EventInterval.Props.c03_inactive_never_fires",
    "AMPE.EventInterval.Props.c03_inactive_never_reports"
   ],
   "note": "Any interleaving of the three entry points on any object state."
  },
  {
   "property": "C04",
   "status": "proved",
   "theorems": [
    "AMPE.RunLoop.Props.c04_runs_until_first_stop",
    "AMPE.RunLoop.Props.c04_first_stop_unique",
    "AMPE.RunLoop.Props.c04_cycle_limit",
    "AMPE.RunLoop.Props.c04_bounded_by_time",
    "AMPE.RunLoop.Props.c04_step_runs_complete",
    "AMPE.RunLoop.Props.c04_single_level_no_regrid"
   ],
   "note": "Step sizes are an arbitrary oracle."
  },
  {
   "property": "C05",
   "status": "partial",
   "theorems": [
    "AMPE.RunLoop.Props.c05_initial_restart_ignores_restart_schedule",
    "AMPE.RunLoop.Props.c05_initial_restart_follows_regrid_schedule",
    "AMPE.RunLoop.Props.c05_violation"
   ],
   "note": "The code violates the property (PFModel.cc:453 consults the regrid schedule): the actual behaviour and a concrete violation are proved."
  },
  {
   "property": "C06",
   "status": "partial",
   "theorems": [
    "AMPE.RunLoop.Props.c06_final_plot_once_partial",
    "AMPE.RunLoop.Props.c06_zero_cycle_run",
    "AMPE.RunLoop.Props.c06_violation",
    "AMPE.RunLoop.Props.c06_plot_list"
   ],
   "note": "Proved for every run with at least one cycle, including the full list of plots; the zero-cycle run violates the property (witness c06_violation)."
  },
  {
   "property": "C07",
   "status": "partial",
   "theorems": [
    "AMPE.RunLoop.Props.c07_restart_round_trip",
    "AMPE.RunLoop.Props.c07_restart_restores_position",
    "AMPE.RunLoop.Props.c07_delta_cycles_partial",
    "AMPE.RunLoop.Props.c07_limit_precedence_clash",
    "AMPE.RunLoop.Props.c07_fresh_run",
    "AMPE.RunLoop.Props.c07_resumed_run_length_partial"
   ],
   "note": "Round trip and delta limit proved; delta and absolute limits given together have opposite precedence on start and restart (c07_limit_precedence_clash)."
  },
  {
   "property": "C08",
   "status": "partial",
   "theorems": [
    "AMPE.TemperatureHistory.Props.c08_bilinear",
    "AMPE.TemperatureHistory.Props.c08_between",
    "AMPE.TemperatureHistory.Props.c08_node_exact",
    "AMPE.TemperatureHistory.Props.c08_gradient_affine",
    "AMPE.TemperatureHistory.Props.c08_outside",
    "AMPE.TemperatureHistory.Props.c08_violation_first_position",
    "AMPE.TemperatureHistory.Props.c08_undefined_iff_partial"
   ],
   "note": "Interpolation, node values, failure codes and gradients proved for every table; the 'never reads outside the table' part is false: exactly at the first position the unsigned index wraps (c08_undefined_iff_partial gives the exact set)."
  },
  {
   "property": "C09",
   "status": "proved",
   "theorems": [
    "AMPE.PairWeights.Props.c09_partition_of_unity",
    "AMPE.PairWeights.Props.c09_two_phase",
    "AMPE.PairWeights.Props.c09_swap_12",
    "AMPE.PairWeights.Props.c09_swap_01"
   ],
   "note": "No non-degeneracy hypothesis needed; also two-phase limit and relabelling equivariance."
  },
  {
   "property": "C10",
   "status": "proved",
   "theorems": [
    "AMPE.Functions.Props.c10_supported_kinds",
    "AMPE.Functions.Props.c10_endpoints",
    "AMPE.Functions.Props.c10_monotone",
    "AMPE.Functions.Props.c10_range",
    "AMPE.Functions.Props.c10_clamped_outside",
    "AMPE.Functions.Props.c10_clamped_below",
    "AMPE.Functions.Props.c10_s_not_clamped"
   ],
   "note": "All kinds; kind s is not clamped below (c10_s_not_clamped)."
  },
  {
   "property": "C11",
   "status": "partial",
   "theorems": [
    "AMPE.Functions.Props.c11_first_partial",
    "AMPE.Functions.Props.c11_violation_l",
    "AMPE.Functions.Props.c11_violation_s",
    "AMPE.Functions.Props.c11_second_supported",
    "AMPE.Functions.Props.c11_second_partial",
    "AMPE.Functions.Props.c11_violation_second_h",
    "AMPE.Functions.Props.c11_violation_second_w"
   ],
   "note": "True for seven kinds everywhere; kinds l and s, and second derivatives of h and w, are wrong outside the clamp range (violation theorems give the exact sets)."
  },
  {
   "property": "C12",
   "status": "proved",
   "theorems": [
    "AMPE.Functions.Props.c12_double_well",
    "AMPE.Functions.Props.c12_barrier",
    "AMPE.Functions.Props.c12_single_well",
    "AMPE.Functions.Props.c12_derivatives",
    "AMPE.Functions.Props.c12_other_kinds_abort"
   ],
   "note": ""
  },
  {
   "property": "C13",
   "status": "partial",
   "theorems": [
    "AMPE.Functions.Props.c13_symmetric",
    "AMPE.Functions.Props.c13_between",
    "AMPE.Functions.Props.c13_between_nonneg",
    "AMPE.Functions.Props.c13_equal_values",
    "AMPE.Functions.Props.c13_harmonic_denominator",
    "AMPE.Functions.Props.c13_harmonic_le_arithmetic",
    "AMPE.Functions.Props.c13_deriv_arithmetic_partial",
    "AMPE.Functions.Props.c13_violation_deriv_harmonic"
   ],
   "note": "Averages proved; derivative routine right for the arithmetic kind, wrong for the harmonic kind as called unless both values are equal (c13_violation_deriv_harmonic)."
  },
  {
   "property": "C14",
   "status": "proved",
   "theorems": [
    "AMPE.Quat.Props.c14_product_is_hamilton",
    "AMPE.Quat.Props.c14_aborts_iff",
    "AMPE.Quat.Props.c14_length",
    "AMPE.Quat.Props.c14_inverse",
    "AMPE.Quat.Props.c14_index_returned",
    "AMPE.Quat.Props.c14_closed",
    "AMPE.Quat.Props.c14_identity",
    "AMPE.Quat.Props.c14_table_complete",
    "AMPE.Quat.Props.c14_table_sound",
    "AMPE.Quat.Props.c14_two_components",
    "AMPE.Quat.Props.c14_two_components_closed",
    "AMPE.Quat.Props.c14_angle"
   ],
   "note": "Quaternion, two-component and angle representations; the 48-entry table is proved to be exactly the set of unit quaternions mapping the cube to itself, closed under composition; rotation by -i undoes rotation by i; invalid indices abort."
  },
  {
   "property": "C15",
   "status": "proved",
   "theorems": [
    "AMPE.Quat.Props.c15_distance",
    "AMPE.Quat.Props.c15_search4",
    "AMPE.Quat.Props.c15_search4_finds",
    "AMPE.Quat.Props.c15_search2",
    "AMPE.Quat.Props.c15_search1",
    "AMPE.Quat.Props.c15_misorientation",
    "AMPE.Quat.Props.c15_misorientation_sharp",
    "AMPE.Quat.Props.c15_nearest4",
    "AMPE.Quat.Props.c15_nearest_equivalent",
    "AMPE.Quat.Props.c15_distance_invariant",
    "AMPE.Quat.Props.c15_nearest2",
    "AMPE.Quat.Props.c15_nearest1"
   ],
   "note": "All start indices (also invalid ones), all three representations; the early exit is proved harmless, so the returned orientation is a closest one among all equivalents. After the search two orientations are never more than 62.8 degrees apart, and that bound is attained."
  },
  {
   "property": "C16",
   "status": "partial",
   "theorems": [
    "AMPE.Quat.Props.c16_rotation",
    "AMPE.Quat.Props.c16_rotation_unit",
    "AMPE.Quat.Props.c16_opposite",
    "AMPE.Quat.Props.c16_multiplicative",
    "AMPE.Quat.Props.c16_sandwich",
    "AMPE.Quat.Props.c16_derivative_partial",
    "AMPE.Quat.Props.c16_violation_derivative",
    "AMPE.Quat.Props.c16_violation_derivative_sign",
    "AMPE.Quat.Props.c16_tensor_symmetric",
    "AMPE.Quat.Props.c16_tensor_cubic",
    "AMPE.Quat.Props.c16_plane_rotation",
    "AMPE.Quat.Props.c16_plane_matches_quaternion"
   ],
   "note": "Rotation, sign invariance, multiplicativity, the cubic tensor invariance and the plane rotation of the two-component form proved; two entries of the derivative routine are wrong (violation theorems), the other 34 are proved."
  },
  {
   "property": "C17",
   "status": "partial",
   "theorems": [
    "AMPE.QuatTransfer.Props.c17_coarsen_2d",
    "AMPE.QuatTransfer.Props.c17_coarsen_3d",
    "AMPE.QuatTransfer.Props.c17_coarsen_uniform",
    "AMPE.QuatTransfer.Props.c17_coarsen_half_space",
    "AMPE.QuatTransfer.Props.c17_violation_coarsen_2d",
    "AMPE.QuatTransfer.Props.c17_violation_refine_2d",
    "AMPE.QuatTransfer.Props.c17_refine_partial",
    "AMPE.Regrid.Props.c17_violation_linear_refine",
    "AMPE.Regrid.Props.c17_violation_shorter"
   ],
   "note": "Plain coarsening proved in 2D and 3D (unit length unless the mean is numerically zero); the symmetry-aware coarsening and refinement operators pass rotation index 0 and therefore stop the program (violation theorems); refinement with an admissible index is proved as c17_refine_partial. Without the symmetry option refinement is SAMRAI's LINEAR_REFINE without normalisation: the defect from unit length is computed exactly (c17_violation_linear_refine, c17_violation_shorter)."
  },
  {
   "property": "C18",
   "status": "proved",
   "theorems": [
    "AMPE.QuatTransfer.Props.c18_floor",
    "AMPE.QuatTransfer.Props.c18_weights",
    "AMPE.QuatTransfer.Props.c18_violation_ratio",
    "AMPE.QuatTransfer.Props.c18_bilinear",
    "AMPE.QuatTransfer.Props.c18_bilinear_affine",
    "AMPE.QuatTransfer.Props.c18_trilinear",
    "AMPE.QuatTransfer.Props.c18_trilinear_affine"
   ],
   "note": "Floor division for all indices, weights in [0,1), exact cell-centre position, affine exactness; ratios above 16 overrun the work array (violation theorem)."
  },
  {
   "property": "C19",
   "status": "partial",
   "theorems": [
    "AMPE.Grains.Props.c19_labels",
    "AMPE.Grains.Props.c19_no_leak",
    "AMPE.Grains.Props.c19_terminates",
    "AMPE.Grains.Props.c19_count",
    "AMPE.Grains.Props.c19_violation_winding",
    "AMPE.Grains.Props.c19_violation_limit",
    "AMPE.Grains.Props.c19_limit_value"
   ],
   "note": "Proved for any level, patch split and visiting order when the fill stops before its iteration limit; no label ever leaks between grains, and a large enough limit always suffices. The limit actually used is too small for winding grains (violation theorems). One level: coarsening between sweeps is not modelled (see C24)."
  },
  {
   "property": "C20",
   "status": "partial",
   "theorems": [
    "AMPE.Grains.Props.c20_violation_write",
    "AMPE.Grains.Props.c20_unique_in_level_partial",
    "AMPE.Grains.Props.c20_nonneg",
    "AMPE.Grains.Props.c20_violation_levels"
   ],
   "note": "Labels are distinct within a level, in any dimension. Across levels the offset is the number of boxes, so labels collide; the set-up writes one entry past the stride array for every hierarchy (both proved as violations)."
  },
  {
   "property": "C21",
   "status": "proved",
   "theorems": [
    "AMPE.Grains.Props.c21_bijection",
    "AMPE.Grains.Props.c21_distribution",
    "AMPE.Grains.Props.c21_renumber"
   ],
   "note": "Any finite set of labels, any distribution over processes."
  },
  {
   "property": "C22",
   "status": "proved",
   "theorems": [
    "AMPE.Grains.Props.c22_table",
    "AMPE.Grains.Props.c22_total_volume",
    "AMPE.Grains.Props.c22_average",
    "AMPE.Grains.Props.c22_average_bounds",
    "AMPE.Grains.Props.c22_deviation"
   ],
   "note": "Table entries, totals, average bounds and variance, for any distribution of cells over processes; uses the gather of C25."
  },
  {
   "property": "C23",
   "status": "partial",
   "theorems": [
    "AMPE.Grains.Props.c23_pass",
    "AMPE.Grains.Props.c23_nearest",
    "AMPE.Grains.Props.c23_stop_partial",
    "AMPE.Grains.Props.c23_violation_last_patch",
    "AMPE.Grains.Props.c23_violation_two_patches",
    "AMPE.Grains.Props.c23_violation_empty_rank",
    "AMPE.Grains.Props.c23_violation_limit"
   ],
   "note": "Set cells after k passes and nearest-grain provenance proved for any neighbour structure; stop test correct with one patch per process; violations: only the last patch of a process decides, a process without patches never lets the loop stop, and the limit is too small for a corner grain."
  },
  {
   "property": "C24",
   "status": "proved",
   "theorems": [
    "AMPE.Tools.Props.c24_min",
    "AMPE.Tools.Props.c24_order_independent"
   ],
   "note": "Any list of fine labels in any order."
  },
  {
   "property": "C25",
   "status": "proved",
   "theorems": [
    "AMPE.Tools.Props.c25_gather",
    "AMPE.Tools.Props.c25_all_written",
    "AMPE.Tools.Props.c25_gather_wrong_size",
    "AMPE.Tools.Props.c25_list_local_to_global"
   ],
   "note": "Any number of processes and buffer sizes; a wrong announced size aborts."
  },
  {
   "property": "C26",
   "status": "partial",
   "theorems": [
    "AMPE.InputEcho.Props.c26_paths_partial",
    "AMPE.InputEcho.Props.c26_kept",
    "AMPE.InputEcho.Props.c26_violation_dropped",
    "AMPE.InputEcho.Props.c26_violation_boolean",
    "AMPE.InputEcho.Props.c26_double_error",
    "AMPE.InputEcho.Props.c26_violation_double",
    "AMPE.InputEcho.Props.c26_copy_db"
   ],
   "note": "All paths at all depths: characters, integers, floats and strings are kept (c26_kept, c26_paths_partial). The claim is false as stated: booleans (also complex numbers and boxes) never reach the tree (c26_violation_dropped), and a double survives exactly when it has at most ten significant digits (c26_violation_double; the error bound is c26_double_error). The database-to-database copy keeps booleans and all doubles (c26_copy_db). Keys are taken to contain no path separator, as in SAMRAI input files."
  },
  {
   "property": "C27",
   "status": "partial",
   "theorems": [
    "AMPE.Coefficients.Props.c27_binary",
    "AMPE.Coefficients.Props.c27_ternary_matrix",
    "AMPE.Coefficients.Props.c27_ternary_psd",
    "AMPE.Coefficients.Props.c27_ternary_pd",
    "AMPE.Coefficients.Props.c27_ternary_reduces",
    "AMPE.Coefficients.Props.c27_ternary_expansion",
    "AMPE.Coefficients.Props.c27_binary_lattice",
    "AMPE.Coefficients.Props.c27_arrhenius",
    "AMPE.Coefficients.Props.c27_mixture",
    "AMPE.Coefficients.Props.c27_read",
    "AMPE.Coefficients.Props.c27_violation_fourth",
    "AMPE.Coefficients.Props.c27_violation_gap"
   ],
   "note": "Proved: binary mobility non-negative (positive inside (0,1)), zero for pure components; ternary matrix equals the lattice-frame matrix, symmetric, positive semidefinite (definite inside the simplex); exact difference between the ternary and binary activation energies. Violations proved: reading a fourth species overwrites the first one's coefficients, and a gap in the species letters writes out of bounds."
  },
  {
   "property": "C28",
   "status": "proved",
   "theorems": [
    "AMPE.Coefficients.Props.c28_rest",
    "AMPE.Coefficients.Props.c28_equilibrium",
    "AMPE.Coefficients.Props.c28_bounds",
    "AMPE.Coefficients.Props.c28_monotone",
    "AMPE.Coefficients.Props.c28_reciprocal",
    "AMPE.Coefficients.Props.c28_limit",
    "AMPE.Coefficients.Props.c28_at_most_one"
   ],
   "note": "For every positive diffusion velocity, positive equilibrium coefficient and every velocity. The limit is a quantitative bound |k-1| <= |1-min(ke,1/ke)| vd/|v|."
  },
  {
   "property": "C29",
   "status": "proved",
   "theorems": [
    "AMPE.Coefficients.Props.c29_split",
    "AMPE.Coefficients.Props.c29_order",
    "AMPE.Coefficients.Props.c29_violation_zero"
   ],
   "note": "Existence, conservation, ratio, uniqueness and ordering of the split for k>0. The code also accepts k=0, where it divides by zero in the solid; c29_violation_zero says this is the only failure."
  },
  {
   "property": "C30",
   "status": "partial",
   "theorems": [
    "AMPE.Coefficients.Props.c30_ramp",
    "AMPE.Coefficients.Props.c30_monotone",
    "AMPE.Coefficients.Props.c30_field",
    "AMPE.Coefficients.Props.c30_violation_target",
    "AMPE.Coefficients.Props.c30_violation_constant"
   ],
   "note": "Proved when the target is ahead of the ramp, including the field after any sequence of calls starting at time 0. Violated otherwise: a target behind the initial value replaces the initial temperature at time 0; a constant temperature is never written if no call happens at time 0."
  },
  {
   "property": "C31",
   "status": "partial",
   "theorems": [
    "AMPE.Flux.Props.c31_block_2d",
    "AMPE.Flux.Props.c31_block_3d",
    "AMPE.Flux.Props.c31_conserved_2d",
    "AMPE.Flux.Props.c31_conserved_3d",
    "AMPE.Flux.Props.c31_periodic_contributions",
    "AMPE.Flux.Props.c31_mirror_zero",
    "AMPE.Flux.Props.c31_periodic_contributions_y",
    "AMPE.Flux.Props.c31_mirror_zero_y",
    "AMPE.Flux.Props.c31_mirror_zero_upper",
    "AMPE.Flux.Props.c31_linear_profiles",
    "AMPE.Flux.Props.c31_composite",
    "AMPE.Flux.Props.c31_violation_spinodal_3d",
    "AMPE.Flux.Props.c31_violation_spinodal_shared_face",
    "AMPE.Flux.Props.c31_spinodal_2d_periodic",
    "AMPE.Flux.Props.c31_spinodal_axes",
    "AMPE.Flux.Props.c31_spinodal_mirror"
   ],
   "note": "Block sums telescope to boundary fluxes (2D, 3D), conservation for periodic/zero-flux boundaries, every 2D x contribution is periodic with the data and vanishes for mirror ghosts, and conservation on a two-level composite grid with any covered set and any refinement ratio. Violation: the 3D spinodal routine resets the y fluxes while computing the z fluxes, so neighbouring patches disagree on shared faces. The spinodal fluxes are exchanged with the axes and change sign seen from the other side."
  },
  {
   "property": "C32",
   "status": "proved",
   "theorems": [
    "AMPE.Flux.Props.c32_slot",
    "AMPE.Flux.Props.c32_uniform",
    "AMPE.Flux.Props.c32_linear",
    "AMPE.Flux.Props.c32_downhill",
    "AMPE.Flux.Props.c32_exact_quadratic",
    "AMPE.Flux.Props.c32_exact_quartic_averages",
    "AMPE.Flux.Props.c32_quartic_spec",
    "AMPE.Flux.Props.c32_point_values",
    "AMPE.Flux.Props.c32_boundary",
    "AMPE.Flux.Props.c32_axes_3d",
    "AMPE.Flux.Props.c32_transverse_3d",
    "AMPE.Flux.Props.c32_exact_quadratic_3d"
   ],
   "note": "Uniform data, linearity, sign, exactness on quadratics (2nd order, isotropic), on cell averages of quartics (4th order), the exact error on point values of cubics, and the boundary fallback. Matrix slots proved collision-free."
  },
  {
   "property": "C33",
   "status": "proved",
   "theorems": [
    "AMPE.PhaseRHS.Props.c33_gradient_2d",
    "AMPE.PhaseRHS.Props.c33_gradient_3d",
    "AMPE.PhaseRHS.Props.c33_partial_derivative",
    "AMPE.PhaseRHS.Props.c33_energy_decay_2d",
    "AMPE.PhaseRHS.Props.c33_violation_isotropic"
   ],
   "note": "2D and 3D, arbitrary periodic grid and any path of states for gradient_flux; single-cell partial derivative and monotone decay in 2D. c33_violation_isotropic gives the exact difference of the rate when the isotropic flux stencil is selected: that stencil is not paired with the reported energy."
  },
  {
   "property": "C34",
   "status": "proved",
   "theorems": [
    "AMPE.PhaseRHS.Props.c34_rate_sum_zero",
    "AMPE.PhaseRHS.Props.c34_driving_sum_zero",
    "AMPE.PhaseRHS.Props.c34_fraction_kept",
    "AMPE.PhaseRHS.Props.c34_project_lands",
    "AMPE.PhaseRHS.Props.c34_project_fixed",
    "AMPE.PhaseRHS.Props.c34_project_nearest",
    "AMPE.PhaseRHS.Props.c34_error_tangent",
    "AMPE.PhaseRHS.Props.c34_energy_decay"
   ],
   "note": "Rates, driving forces, projection (lands, fixes the plane, nearest point), error projection, energy decay of the three-phase flow."
  },
  {
   "property": "C35",
   "status": "partial",
   "theorems": [
    "AMPE.PhaseRHS.Props.c35_violation_extra_force",
    "AMPE.PhaseRHS.Props.c35_violation_iff",
    "AMPE.PhaseRHS.Props.c35_force_partial",
    "AMPE.PhaseRHS.Props.c35_actual_potential",
    "AMPE.PhaseRHS.Props.c35_pure_grain_stationary"
   ],
   "note": "The claim is false for the code: dsum subtracts phi instead of phi^2 (2D and 3D). c35_violation_* give the exact extra force and the exact set where it vanishes; c35_actual_potential identifies the potential the code really descends. c35_force_partial keeps the claim where it holds."
  },
  {
   "property": "C36",
   "status": "proved",
   "theorems": [
    "AMPE.PhaseRHS.Props.c36_fractions",
    "AMPE.PhaseRHS.Props.c36_two_phase",
    "AMPE.PhaseRHS.Props.c36_three_phase"
   ],
   "note": "Both multi-order driving forces, any number of order parameters."
  },
  {
   "property": "C37",
   "status": "partial",
   "theorems": [
    "AMPE.RigidBody.Props.c37_wang_value",
    "AMPE.RigidBody.Props.c37_action_reaction",
    "AMPE.RigidBody.Props.c37_total",
    "AMPE.RigidBody.Props.c37_density_support",
    "AMPE.RigidBody.Props.c37_density_factor",
    "AMPE.RigidBody.Props.c37_density_support_3d",
    "AMPE.RigidBody.Props.c37_density_factor_3d",
    "AMPE.RigidBody.Props.c37_violation_phiphi_2d",
    "AMPE.RigidBody.Props.c37_violation_phiphi_3d",
    "AMPE.RigidBody.Props.c37_violation_second_phase"
   ],
   "note": "Proved in full for the composition-based (wang) forces in any dimension, number of grains, patches and processes. False for the order-parameter-product forces: c37_violation_phiphi_2d gives the exact imbalance, c37_violation_phiphi_3d the slot overlap of the 3D routine, c37_violation_second_phase the out-of-range reads when a second solid phase is present."
  },
  {
   "property": "C38",
   "status": "partial",
   "theorems": [
    "AMPE.RigidBody.Props.c38_violation_last_patch",
    "AMPE.RigidBody.Props.c38_violation_lost",
    "AMPE.RigidBody.Props.c38_violation_underestimates",
    "AMPE.RigidBody.Props.c38_one_patch_partial",
    "AMPE.RigidBody.Props.c38_symmetric",
    "AMPE.RigidBody.Props.c38_violation_density"
   ],
   "note": "False for the code: the routine zeroes the running total on every patch. c38_violation_* give exactly what is reported and what is lost; c38_one_patch_partial is the case where the claim holds."
  },
  {
   "property": "C39",
   "status": "partial",
   "theorems": [
    "AMPE.Weights.Props.c39_integral",
    "AMPE.Weights.Props.c39_total",
    "AMPE.Weights.Props.c39_each_cell_once",
    "AMPE.Weights.Props.c39_violation_diagnostics",
    "AMPE.Weights.Props.c39_violation_overcount",
    "AMPE.Weights.Props.c39_violation_subdomain",
    "AMPE.Weights.Props.c39_subdomain_bounds"
   ],
   "note": "Full claim proved for the integration weights on any hierarchy that satisfies Nested: total weight is the domain volume (c39_total) and locally every coarse cell counts exactly once for any coarse-resolved integrand (c39_integral, c39_each_cell_once). Partial because the diagnostics weights do not have it: zeroOutLowerLevelWeights edits d_weight_id only, so refined regions are counted once per level (c39_violation_diagnostics, c39_violation_overcount), and the closed test on lower corners keeps one extra layer of cells (c39_violation_subdomain)."
  },
  {
   "property": "C40",
   "status": "partial",
   "theorems": [
    "AMPE.Tagging.Props.c40_tagged_iff_partial",
    "AMPE.Tagging.Props.c40_no_criteria",
    "AMPE.Tagging.Props.c40_uniform_untagged",
    "AMPE.Tagging.Props.c40_violation_threshold_tagged_ignored",
    "AMPE.Tagging.Props.c40_violation_other_order_parameters",
    "AMPE.Tagging.Props.c40_violation_interface_missed",
    "AMPE.Tagging.Props.c40_tagged_iff_3d"
   ],
   "note": "Tags characterised exactly for every patch, field, tolerance and combination of criteria (c40_tagged_iff_partial, c40_tagged_iff_3d), uniform cells untagged. Partial because the union is not over what the input promises: threshold_tagged is read but never used (c40_violation_threshold_tagged_ignored) and with several order parameters only the first one is looked at (c40_violation_other_order_parameters, c40_violation_interface_missed)."
  },
  {
   "property": "C41",
   "status": "partial",
   "theorems": [
    "AMPE.OrientSolve.Props.c41_bounds_poly",
    "AMPE.OrientSolve.Props.c41_bounds_exp",
    "AMPE.OrientSolve.Props.c41_bounds_inverse",
    "AMPE.OrientSolve.Props.c41_end_values",
    "AMPE.OrientSolve.Props.c41_unknown_kind",
    "AMPE.OrientSolve.Props.c41_deriv_poly",
    "AMPE.OrientSolve.Props.c41_deriv_exp_partial",
    "AMPE.OrientSolve.Props.c41_deriv_inverse_partial",
    "AMPE.OrientSolve.Props.c41_violation_exp_outside",
    "AMPE.OrientSolve.Props.c41_violation_inverse_capped"
   ],
   "note": "Bounds proved for all three kinds and every phase value; derivative proved everywhere for the polynomial kind and where clamps and cap are inactive for the others. Partial: beyond the clamps the exponential kind, and above its cap the inverse kind, have derivative zero but the routine returns a non-zero value (c41_violation_exp_outside, c41_violation_inverse_capped)."
  },
  {
   "property": "C42",
   "status": "proved",
   "theorems": [
    "AMPE.OrientSolve.Props.c42_correction_tangent",
    "AMPE.OrientSolve.Props.c42_correction_zero",
    "AMPE.OrientSolve.Props.c42_multiplier_tangent",
    "AMPE.OrientSolve.Props.c42_projection",
    "AMPE.OrientSolve.Props.c42_projection_fixes",
    "AMPE.OrientSolve.Props.c42_projection_defined_iff"
   ],
   "note": "Correction and multiplier form are orthogonal to the orientation for every depth and all data, projection lands on the sphere, fixes unit orientations and removes exactly the normal part; the zero orientation is the only one excluded (c42_projection_defined_iff). Rotations by symmetry elements are arbitrary maps."
  },
  {
   "property": "C43",
   "status": "partial",
   "theorems": [
    "AMPE.Smoother.Props.c43_colour2",
    "AMPE.Smoother.Props.c43_colour3",
    "AMPE.Smoother.Props.c43_once2",
    "AMPE.Smoother.Props.c43_violation_negative_rows",
    "AMPE.Smoother.Props.c43_once3_partial",
    "AMPE.Smoother.Props.c43_violation_negative_rows3",
    "AMPE.Smoother.Props.c43_independent2",
    "AMPE.Smoother.Props.c43_independent3",
    "AMPE.Smoother.Props.c43_violation_across_patches",
    "AMPE.Smoother.Props.c43_maxres",
    "AMPE.Smoother.Props.c43_untouched",
    "AMPE.Smoother.Props.c43_fixed_point",
    "AMPE.Smoother.Props.c43_residual_zero_partial",
    "AMPE.Smoother.Props.c43_fixed_point3",
    "AMPE.Smoother.Props.c43_residual_zero3_partial"
   ],
   "note": "Proved for all patches with non-negative index origin (2D and 3D, any data): exact coverage, checkerboard colours, independence within a patch, residual zero after a pass when the flux spacing equals the patch spacing, exact solutions fixed, maxres. The claim as stated is false: for a negative second index origin (2D; in 3D a negative index sum) truncating division makes every odd row update half its cells twice and the others never (c43_once2 is an iff; c43_violation_negative_rows). In 2D face neighbours on different patches are updated in the same pass whenever the patch origins differ in parity (c43_violation_across_patches)."
  },
  {
   "property": "C44",
   "status": "partial",
   "theorems": [
    "AMPE.BcTable.Props.c44_values",
    "AMPE.BcTable.Props.c44_error",
    "AMPE.BcTable.Props.c44_violation_undefined",
    "AMPE.BcTable.Props.c44_violation_single",
    "AMPE.BcTable.Props.c44_history_partial",
    "AMPE.BcTable.Props.c44_forward",
    "AMPE.BcTable.Props.c44_far_back",
    "AMPE.BcTable.Props.c44_faces",
    "AMPE.BcTable.Props.c44_violation_shared",
    "AMPE.BcTable.Props.c44_read",
    "AMPE.BcTable.Props.c44_kind",
    "AMPE.BcTable.Props.c44_rescale"
   ],
   "note": "Every outcome of a call is characterised for all increasing tables, times and static slots (c44_values, c44_error, c44_violation_undefined). Histories on one table that never jump back by more than 11 intervals interpolate correctly (c44_history_partial; forward runs c44_forward), further jumps are errors (c44_far_back). The claim is false as stated: a request at or after the last time, or any request on a one-entry table, reads past the end; and because the search position is function-static, two objects with different tables on one face disturb each other (c44_violation_shared)."
  },
  {
   "property": "C45",
   "status": "partial",
   "theorems": [
    "AMPE.Coefficients.Props.c45_bounded",
    "AMPE.Coefficients.Props.c45_direction",
    "AMPE.Coefficients.Props.c45_tracks",
    "AMPE.Coefficients.Props.c45_first",
    "AMPE.Coefficients.Props.c45_violation_rest",
    "AMPE.Coefficients.Props.c45_violation_same_time"
   ],
   "note": "Bound, direction, exact tracking and first call proved. Violations: the bound is the initial velocity so a frame started at rest never adapts; two calls at the same time divide by zero."
  },
  {
   "property": "C46",
   "status": "proved",
   "theorems": [
    "AMPE.PhaseRHS.Props.c46_upwind3_cubic",
    "AMPE.PhaseRHS.Props.c46_upwind3_quartic",
    "AMPE.PhaseRHS.Props.c46_centred",
    "AMPE.PhaseRHS.Props.c46_boundary_footprint",
    "AMPE.PhaseRHS.Props.c46_conservative",
    "AMPE.PhaseRHS.Props.c46_upwind3_work",
    "AMPE.PhaseRHS.Props.c46_upwind3_damps",
    "AMPE.PhaseRHS.Props.c46_violation_downwind"
   ],
   "note": "Cubics (upwind), quadratics (centred and at physical boundary), exact next error terms, conservation on periodic rows, work identity. c46_violation_downwind: the stencil is fixed-direction, so it amplifies for negative frame velocity."
  },
  {
   "property": "C47",
   "status": "proved",
   "theorems": [
    "AMPE.Coefficients.Props.c47_single",
    "AMPE.Coefficients.Props.c47_storage_packing",
    "AMPE.Coefficients.Props.c47_storage",
    "AMPE.Coefficients.Props.c47_tensor"
   ],
   "note": "Both maps, 2D and 3D, over their whole index range, plus the combined statement on the minor and major symmetries of a stiffness tensor."
  },
  {
   "property": "C48",
   "status": "partial",
   "theorems": [
    "AMPE.EventInterval.Props.c48_step_schedule_restart_transparent",
    "AMPE.EventInterval.Props.c48_time_schedule_restart_transparent",
    "AMPE.EventInterval.Props.c48_unprimed_time_schedule_not_transparent"
   ],
   "note": "Proved for the schedules primed by the driver; the restart-file schedule is never primed and loses its first crossing in time-based form (violation theorem)."
  },
  {
   "property": "C49",
   "status": "proved",
   "theorems": [
    "AMPE.Quat.Props.c49_max",
    "AMPE.Quat.Props.c49_sqrt",
    "AMPE.Quat.Props.c49_tanh",
    "AMPE.Quat.Props.c49_other"
   ],
   "note": "Floor types m, t, s and the abort for every other type."
  },
  {
   "property": "C50",
   "status": "partial",
   "theorems": [
    "AMPE.AntiTrap.Props.c50_plane_front",
    "AMPE.AntiTrap.Props.c50_three_phase_bounded",
    "AMPE.AntiTrap.Props.c50_three_phase_direction",
    "AMPE.Flux.Props.c50_bounded",
    "AMPE.Flux.Props.c50_multi_agrees",
    "AMPE.Flux.Props.c50_violation_three_phase_sign",
    "AMPE.Flux.Props.c50_violation_fields",
    "AMPE.Flux.Props.c50_exchange_solids",
    "AMPE.Flux.Props.c50_axes",
    "AMPE.Flux.Props.c50_mirror"
   ],
   "note": "Bounds proved for two and three phases; a plane front gets the same current along its normal whatever its orientation; the three-phase current depends on the direction of the solid gradient only; the multi-order-parameter current agrees with the two-phase one. Violation: the three-phase current is the exact opposite for a two-phase interface, for every alpha, gradient and composition. The currents are exchanged with the axes, and exchanging the two solids changes nothing."
  },
  {
   "property": "C51",
   "status": "proved",
   "theorems": [
    "AMPE.Flux.Props.c51_scatter",
    "AMPE.Flux.Props.c51_footprint",
    "AMPE.Flux.Props.c51_mu_ch",
    "AMPE.Flux.Props.c51_mu_wang"
   ],
   "note": "Scatter loops proved equal to face differences of the potential on every face of the patch, with their exact write footprint; both bulk potentials are the derivatives of their energies."
  },
  {
   "property": "C52",
   "status": "partial",
   "theorems": [
    "AMPE.Flux.Props.c52_violation_slot",
    "AMPE.Flux.Props.c52_slot_partial"
   ],
   "note": "Correct for at most two species; c52_violation_slot characterises the failure for three or more."
  },
  {
   "property": "C53",
   "status": "partial",
   "theorems": [
    "AMPE.PhaseRHS.Props.c53_partition",
    "AMPE.PhaseRHS.Props.c53_pure",
    "AMPE.PhaseRHS.Props.c53_moelans",
    "AMPE.PhaseRHS.Props.c53_folch_plapp_partial",
    "AMPE.PhaseRHS.Props.c53_violation_off_plane",
    "AMPE.PhaseRHS.Props.c53_tangential_reference",
    "AMPE.PhaseRHS.Props.c53_driving_moelans",
    "AMPE.PhaseRHS.Props.c53_driving_folch_plapp_partial"
   ],
   "note": "Moelans: everywhere with positive fraction. Folch-Plapp: on the plane where the fractions sum to one; off it the cross derivative is wrong by the factor in c53_violation_off_plane."
  },
  {
   "property": "C54",
   "status": "proved",
   "theorems": [
    "AMPE.PhaseRHS.Props.c54_common_energy",
    "AMPE.PhaseRHS.Props.c54_equilibria",
    "AMPE.PhaseRHS.Props.c54_ground_state"
   ],
   "note": "Common energy along any path; equilibria for any number of grains; ground state for one grain."
  },
  {
   "property": "C55",
   "status": "proved",
   "theorems": [
    "AMPE.PhaseRHS.Props.c55_bias_well",
    "AMPE.PhaseRHS.Props.c55_bulk_inactive",
    "AMPE.PhaseRHS.Props.c55_beckermann_sign",
    "AMPE.PhaseRHS.Props.c55_delta_uniform",
    "AMPE.PhaseRHS.Props.c55_delta_linear"
   ],
   "note": ""
  },
  {
   "property": "C56",
   "status": "partial",
   "theorems": [
    "AMPE.PhaseRHS.Props.c56_true_block",
    "AMPE.PhaseRHS.Props.c56_violation"
   ],
   "note": "False for the code: the routine ignores the temperature correction and evaluates h' at the phase correction instead of the phase. c56_true_block computes the required block, c56_violation when the two agree."
  },
  {
   "property": "C57",
   "status": "proved",
   "theorems": [
    "AMPE.RigidBody.Props.c57_momentum",
    "AMPE.RigidBody.Props.c57_composition_follows",
    "AMPE.RigidBody.Props.c57_advects",
    "AMPE.RigidBody.Props.c57_conserves"
   ],
   "note": "For the 2D motion term and the wang forces (any dimension for the momentum balance)."
  },
  {
   "property": "C58",
   "status": "partial",
   "theorems": [
    "AMPE.Tagging.Props.c58_affine_exact",
    "AMPE.Tagging.Props.c58_axes_alike",
    "AMPE.Tagging.Props.c58_violation_isotropic_axes",
    "AMPE.Tagging.Props.c58_violation_isotropic_differs"
   ],
   "note": "Exactness on affine fields for all ten gradient routines and axis symmetry for the ones in use; grad_side_isotropic averages along the wrong direction on y sides (c58_violation_isotropic_axes, c58_violation_isotropic_differs); that routine has no caller in this commit."
  },
  {
   "property": "C59",
   "status": "partial",
   "theorems": [
    "AMPE.Smoother.Props.c59_violation_level_residual",
    "AMPE.Smoother.Props.c59_coarsest_partial",
    "AMPE.Smoother.Props.c59_violation_converged",
    "AMPE.Smoother.Props.c59_violation_smoothing",
    "AMPE.Smoother.Props.c59_violation_level_residual3"
   ],
   "note": "The claim is false: EllipticFACOps::computeFluxOnPatch takes dx from the grid geometry (coarsest level) while the divergence and the smoother's diagonal use the patch's dx, so on a level of total ratio R the diffusion term is divided by R (c59_violation_level_residual, 2D and 3D). c59_violation_converged says how wrong a converged solution is, c59_violation_smoothing that an update leaves a factor 1-1/R of the residual. Proved on the coarsest level (c59_coarsest_partial). Assumes CartesianGridGeometry::getDx() is the spacing of the coarsest level, which is SAMRAI's documented meaning."
  },
  {
   "property": "C60",
   "status": "partial",
   "theorems": [
    "AMPE.DiffCoeff.Props.c60_turned_2d",
    "AMPE.DiffCoeff.Props.c60_turned_3d",
    "AMPE.DiffCoeff.Props.c60_mirrored",
    "AMPE.DiffCoeff.Props.c60_arrhenius",
    "AMPE.DiffCoeff.Props.c60_between",
    "AMPE.DiffCoeff.Props.c60_pure",
    "AMPE.DiffCoeff.Props.c60_scalar",
    "AMPE.DiffCoeff.Props.c60_violation_multi_y",
    "AMPE.DiffCoeff.Props.c60_violation_multi_y_linear",
    "AMPE.DiffCoeff.Props.c60_violation_multi_3d",
    "AMPE.DiffCoeff.Props.c60_multi_y_partial",
    "AMPE.DiffCoeff.Props.c60_violation_three_z",
    "AMPE.DiffCoeff.Props.c60_three_z_partial",
    "AMPE.DiffCoeff.Props.c60_beckermann_between",
    "AMPE.DiffCoeff.Props.c60_violation_beckermann"
   ],
   "note": "Two-phase, constant and (x, y) three-phase coefficients: the coefficients of a turned or mirrored sample are the turned or mirrored coefficients; between the two Arrhenius values, exact in the pure phases, monotone in temperature. Violated by the y and z faces of the several-order-parameter routines (liquid fraction of the lower cell, or of a wrong cell), by the z faces of the 3D three-phase routine (only the last B order parameter) and by the Beckermann routine (partition coefficient of the upper cell); what remains true is proved as partial."
  },
  {
   "property": "C61",
   "status": "partial",
   "theorems": [
    "AMPE.DiffCoeff.Props.c61_pairs",
    "AMPE.DiffCoeff.Props.c61_pair_bound",
    "AMPE.DiffCoeff.Props.c61_single_bound",
    "AMPE.DiffCoeff.Props.c61_both_sides",
    "AMPE.DiffCoeff.Props.c61_local",
    "AMPE.DiffCoeff.Props.c61_interior_partial",
    "AMPE.DiffCoeff.Props.c61_violation_shared_face",
    "AMPE.DiffCoeff.Props.c61_violation_mass"
   ],
   "note": "Constant interface diffusivity: both cells of every patch face contribute, pair enumeration, bounds and normalisation proved. Violated by the temperature-dependent routine: on a face shared by two patches each patch adds its own cell only; characterised exactly, interior faces proved (partial)."
  },
  {
   "property": "C62",
   "status": "partial",
   "theorems": [
    "AMPE.DiffCoeff.Props.c62_two_phase",
    "AMPE.DiffCoeff.Props.c62_two_phase_storage",
    "AMPE.DiffCoeff.Props.c62_multi_partial",
    "AMPE.DiffCoeff.Props.c62_violation_iso",
    "AMPE.DiffCoeff.Props.c62_scalar_storage_partial",
    "AMPE.DiffCoeff.Props.c62_violation_scalar_storage",
    "AMPE.MobDiff.Props.c62_mobility_partial",
    "AMPE.MobDiff.Props.c62_violation_mobility"
   ],
   "note": "Two-phase routine proved for both stencils. Violated: the several-order-parameter and three-phase routines never write the coefficients next to the patch that the isotropic stencil reads; the interface terms are added outside the storage when the model uses one ghost cell (the default). Storage with two ghost cells and the plain stencil proved (partial). For composition-dependent diffusion the plain stencil with two phases is proved (partial); with the isotropic stencil or a phase B coefficients are read that were never written."
  },
  {
   "property": "C63",
   "status": "partial",
   "theorems": [
    "AMPE.Anisotropy.Props.c63_flux_is_gradient_2d",
    "AMPE.Anisotropy.Props.c63_polar_2d",
    "AMPE.Anisotropy.Props.c63_dissipative_2d",
    "AMPE.Anisotropy.Props.c63_isotropic_2d",
    "AMPE.Anisotropy.Props.c63_grid_2d",
    "AMPE.Anisotropy.Props.c63_face_orientation_2d",
    "AMPE.Anisotropy.Props.c63_flux_is_gradient_3d",
    "AMPE.Anisotropy.Props.c63_dissipative_3d",
    "AMPE.Anisotropy.Props.c63_violation_shortened_3d",
    "AMPE.Anisotropy.Props.c63_violation_grain_boundary_3d"
   ],
   "note": "2D: flux is the derivative of the energy density away from the cut-off, polar form for even patterns, dissipation, isotropic limit and affine fields on the grid. 3D: derivative of the energy density for unit orientations. Violated in 3D on faces between differently oriented cells: the averaged orientation is not normalised, excess computed exactly."
  },
  {
   "property": "C64",
   "status": "partial",
   "theorems": [
    "AMPE.Anisotropy.Props.c64_turned_2d_partial",
    "AMPE.Anisotropy.Props.c64_violation_clockwise_2d",
    "AMPE.Anisotropy.Props.c64_violation_opposite_2d",
    "AMPE.Anisotropy.Props.c64_violation_angle_2d",
    "AMPE.Anisotropy.Props.c64_sample_turned_3d",
    "AMPE.Anisotropy.Props.c64_violation_symmetry_3d",
    "AMPE.Anisotropy.Props.c64_symmetry_conj_partial",
    "AMPE.Anisotropy.Props.c64_violation_symmetry_witness"
   ],
   "note": "Proved: turning the whole sample (3D), counter-clockwise crystals (2D, two or four components), conjugate formula. Violated: 2D clockwise crystals and q versus -q (acos loses the sign), angle representation (acos of the angle), 3D equivalent orientations q·s (the rotation is applied in the wrong direction)."
  },
  {
   "property": "C65",
   "status": "partial",
   "theorems": [
    "AMPE.EnergyReport.Props.c65_total",
    "AMPE.EnergyReport.Props.c65_orient_2d",
    "AMPE.EnergyReport.Props.c65_violation_2d",
    "AMPE.EnergyReport.Props.c65_violation_3d",
    "AMPE.EnergyReport.Props.c65_total_distribution",
    "AMPE.EnergyReport.Props.c65_total_cut",
    "AMPE.EnergyReport.Props.c65_violation_cut",
    "AMPE.EnergyReport.Props.c65_one_patch_partial"
   ],
   "note": "Proved: total and interface energy (2D: orientation and grain-boundary energy too) are integrals over all patches and do not depend on the decomposition or distribution. Violated: well and free energy (3D: orientation and qint energy too) are reset for every patch, so each process reports its last patch only; the parts add up only with one patch per process (c65_one_patch_partial), the deficit is characterised exactly."
  },
  {
   "property": "C66",
   "status": "partial",
   "theorems": [
    "AMPE.EnergyReport.Props.c66_density",
    "AMPE.EnergyReport.Props.c66_off",
    "AMPE.EnergyReport.Props.c66_violation_rigid_body",
    "AMPE.EnergyReport.Props.c66_orient_2d",
    "AMPE.EnergyReport.Props.c66_orient_3d_partial",
    "AMPE.EnergyReport.Props.c66_violation_value_3d",
    "AMPE.EnergyReport.Props.c66_violation_floor_3d"
   ],
   "note": "Proved: density field = sum of parts and integrates to the patch energy; 2D orientation energy is the mirror-symmetric face mean. Violated: with rigid-body motion the field is overwritten by the last pair energy; in 3D the upper y face lacks the gradient floor (c66_orient_3d_partial covers the floor-free case)."
  },
  {
   "property": "C67",
   "status": "partial",
   "theorems": [
    "AMPE.Thermal.Props.c67_energy_balance",
    "AMPE.Thermal.Props.c67_violation_variable_cp",
    "AMPE.Thermal.Props.c67_energy_balance_3d",
    "AMPE.Thermal.Props.c67_maximum_principle",
    "AMPE.Thermal.Props.c67_latent_heat"
   ],
   "note": "Proved in 2D and 3D for constant heat capacity on periodic grids, plus the maximum principle and the latent-heat source. Missing: composition-dependent heat capacity, where c67_violation_variable_cp gives the exact (generally non-zero) production of energy because the conduction term is not divided by the heat capacity."
  },
  {
   "property": "C68",
   "status": "partial",
   "theorems": [
    "AMPE.Thermal.Props.c68_mixture",
    "AMPE.Thermal.Props.c68_positive",
    "AMPE.Thermal.Props.c68_rescale_partial",
    "AMPE.Thermal.Props.c68_violation_rescale",
    "AMPE.Thermal.Props.c68_violation_constant",
    "AMPE.Thermal.Props.c68_constant_partial",
    "AMPE.Thermal.Props.c68_violation_regrid"
   ],
   "note": "Proved: rule of mixtures for any number of species and any powers, positivity. Violated: rescaling of temperature-dependent coefficients, dropped terms of the constant capacity, levels created after the first time step keep zero heat capacity; partial theorems cover power 0 and unadapted meshes."
  },
  {
   "property": "C69",
   "status": "partial",
   "theorems": [
    "AMPE.Thermal.Props.c69_min_image",
    "AMPE.Thermal.Props.c69_periodic",
    "AMPE.Thermal.Props.c69_nonperiodic",
    "AMPE.Thermal.Props.c69_center",
    "AMPE.Thermal.Props.c69_bounds",
    "AMPE.Thermal.Props.c69_bounds_3d",
    "AMPE.Thermal.Props.c69_width",
    "AMPE.Thermal.Props.c69_patch_independent",
    "AMPE.Thermal.Props.c69_peak",
    "AMPE.Thermal.Props.c69_peak_cooling",
    "AMPE.Thermal.Props.c69_follows_partial",
    "AMPE.Thermal.Props.c69_violation_constant_peak"
   ],
   "note": "Proved: minimum image distance, periodicity, centre wrapping, bounds, width, patch independence, ramped peak. Violated: with zero rate the field is never set except at time 0 (c69_violation_constant_peak); c69_follows_partial covers non-zero rates."
  },
  {
   "property": "C70",
   "status": "partial",
   "theorems": [
    "AMPE.Thermal.Props.c70_lab_frame",
    "AMPE.Thermal.Props.c70_continuous",
    "AMPE.Thermal.Props.c70_gradient",
    "AMPE.Thermal.Props.c70_violation_restart",
    "AMPE.Thermal.Props.c70_restart_partial"
   ],
   "note": "Proved: laboratory-frame field under velocity changes, continuity, gradient. Violated after a restart once the velocity was changed; c70_restart_partial covers constant velocity."
  },
  {
   "property": "C71",
   "status": "proved",
   "theorems": [
    "AMPE.Thermal.Props.c71_mixture",
    "AMPE.Thermal.Props.c71_pulse",
    "AMPE.Thermal.Props.c71_scaling"
   ],
   "note": "Composition mixture, pulse and scaling of the steady-state sources."
  },
  {
   "property": "C72",
   "status": "partial",
   "theorems": [
    "AMPE.Alloy.Props.c72_driving_is_derivative_partial",
    "AMPE.Alloy.Props.c72_mismatch",
    "AMPE.Alloy.Props.c72_violation_two_interpolations",
    "AMPE.Alloy.Props.c72_two_volumes",
    "AMPE.Alloy.Props.c72_reference_state",
    "AMPE.Alloy.Props.c72_ternary_partial",
    "AMPE.Alloy.Props.c72_multi_order",
    "AMPE.Alloy.Props.c72_violation_multi_fraction",
    "AMPE.Alloy.Props.c72_violation_multi_rate",
    "AMPE.AlloyThree.Props.c72_three_phase_deviation",
    "AMPE.AlloyThree.Props.c72_three_phase_ternary",
    "AMPE.AlloyThree.Props.c72_three_phase_binary",
    "AMPE.AlloyThree.Props.c72_violation_three_phase_volumes"
   ],
   "note": "Proved for one interpolation function and one molar volume (binary quadratic, CALPHAD/dilute, ternary) and for three phases with several order parameters and one molar volume (ternary quadratic, binary CALPHAD); with two interpolation functions, several molar volumes or two-phase multi-order models the exact deviation is proved, with violations. Free energies and the KKS solver are external: any differentiable energies satisfying the KKS conditions are covered."
  },
  {
   "property": "C73",
   "status": "partial",
   "theorems": [
    "AMPE.Alloy.Props.c73_front_velocity_partial",
    "AMPE.Alloy.Props.c73_front_shape",
    "AMPE.Alloy.Props.c73_velocity_identity",
    "AMPE.Alloy.Props.c73_equilibrium_profile"
   ],
   "note": "Exact travelling front proved for harmonic interpolation; for other interpolation functions the velocity identity is proved, which fixes the velocity only through the profile. Continuous equation, not the discretised one."
  },
  {
   "property": "C74",
   "status": "partial",
   "theorems": [
    "AMPE.Alloy.Props.c74_finite_pos",
    "AMPE.Alloy.Props.c74_zeta",
    "AMPE.Alloy.Props.c74_stride_limit",
    "AMPE.Alloy.Props.c74_anti_trap",
    "AMPE.Alloy.Props.c74_zeta_pos",
    "AMPE.Alloy.Props.c74_violation_negative_polynomial",
    "AMPE.Alloy.Props.c74_three_phases",
    "AMPE.Alloy.Props.c74_factor_pbg_partial",
    "AMPE.Alloy.Props.c74_violation_factor_harmonic"
   ],
   "note": "Positivity, harmonic addition, bounds and the zeta quadratic form proved; the constant is Kim's only for PBG energy with linear concentration interpolation (violation for harmonic); negative zeta polynomials are silently ignored (violation)."
  },
  {
   "property": "C75",
   "status": "proved",
   "theorems": [
    "AMPE.Alloy.Props.c75_update_cells",
    "AMPE.Alloy.Props.c75_update_count",
    "AMPE.Alloy.Props.c75_phi_cell"
   ],
   "note": "Any patch box and any ghost widths; order parameters need the same ghost width as the concentrations, which QuatModel.cc:486 provides."
  },
  {
   "property": "C76",
   "status": "partial",
   "theorems": [
    "AMPE.QuatFlow.Props.c76_rate_covariant4",
    "AMPE.QuatFlow.Props.c76_rate_covariant2",
    "AMPE.QuatFlow.Props.c76_single_crystal4",
    "AMPE.QuatFlow.Props.c76_single_crystal2",
    "AMPE.QuatFlow.Props.c76_violation_default4",
    "AMPE.QuatFlow.Props.c76_violation_default2",
    "AMPE.QuatFlow.Props.c76_violation_default1",
    "AMPE.QuatFlow.Props.c76_default_agrees_partial",
    "AMPE.QuatFlow.Props.c76_violation_single_crystal4",
    "AMPE.QuatFlow.Props.c76_violation_spontaneous4",
    "AMPE.QuatFlow.Props.c76_violation_isotropic_angle",
    "AMPE.QuatFlow.Props.c76_violation_isotropic_angle_y",
    "AMPE.QuatFlow.Props.c76_search_copy",
    "AMPE.QuatFlow.Props.c76_unique_below_45",
    "AMPE.QuatFlow.Props.c76_unique_below_45_plane"
   ],
   "note": "Proved with fluxes built from rotated differences (use_diffs_to_compute_flux = TRUE), four and two components, standard and isotropic stencil, whenever nearest copies are unique (below 45 degrees). Fails in the default setting: the fluxes are built from symmetric differences but not rotated back, and the correction then subtracts plain ones; exact excess proved for all unit fields, and a single crystal holding two copies starts to rotate. Fails for one angle with the isotropic stencil (leftover loop variable). Only 2D, one level, no physical boundary."
  },
  {
   "property": "C77",
   "status": "partial",
   "theorems": [
    "AMPE.QuatFlow.Props.c77_dissipates4",
    "AMPE.QuatFlow.Props.c77_dissipates2",
    "AMPE.QuatFlow.Props.c77_dissipates_plain",
    "AMPE.QuatFlow.Props.c77_dissipates_angle",
    "AMPE.QuatFlow.Props.c77_coef_sign",
    "AMPE.QuatFlow.Props.c77_energy_nonneg",
    "AMPE.QuatFlow.Props.c77_speed"
   ],
   "note": "Proved in 2D on a periodic domain with the standard (non-isotropic) stencil, for 1, 2 and 4 components, without symmetry and with symmetry when use_diffs_to_compute_flux is set; the face coefficients are the program's own at the current state and are held fixed in the variation (the coefficient's dependence on |grad q| is not differentiated). The default symmetry setting is excluded because C76 shows that it adds a spurious term."
  },
  {
   "property": "C78",
   "status": "partial",
   "theorems": [
    "AMPE.LevelSolve.Props.c78_violation_boundary_mobility",
    "AMPE.LevelSolve.Props.c78_exact_partial",
    "AMPE.LevelSolve.Props.c78_exact_const",
    "AMPE.LevelSolve.Props.c78_positive",
    "AMPE.LevelSolve.Props.c78_solvable",
    "AMPE.LevelSolve.Props.c78_violation_dirichlet"
   ],
   "note": "Proved for all levels, mobilities, coefficients and right-hand sides: the coarsest-level matrix is positive definite (mobility not increasing across the boundary) and has exactly one result; for constant mobility, or mobility equal across every boundary face, the result has zero multigrid residual. Not true in general: c78_violation_boundary_mobility gives the exact residual left at boundary cells, c78_violation_dirichlet a family where it is not zero. The hypre solver itself and three SAMRAI routines are assumed (see the model file). 2D, no periodic levels."
  },
  {
   "property": "C79",
   "status": "partial",
   "theorems": [
    "AMPE.LevelSolve.Props.c79_violation_boundary_mobility",
    "AMPE.LevelSolve.Props.c79_exact_partial",
    "AMPE.LevelSolve.Props.c79_coarse_fine",
    "AMPE.LevelSolve.Props.c79_positive",
    "AMPE.LevelSolve.Props.c79_solvable",
    "AMPE.LevelSolve.Props.c79_symmetric",
    "AMPE.LevelSolve.Props.c79_zero_correction",
    "AMPE.LevelSolve.Props.c79_homogeneous",
    "AMPE.LevelSolve.Props.c79_data_must_vanish"
   ],
   "note": "Proved for all levels, mobilities and coefficients: the level matrix of the orientation solver is positive definite with smallest eigenvalue at least 1 and has exactly one result; exact when mobilities agree across boundary faces and at coarse-fine boundaries; with the boundary data the integrator sets (c79_homogeneous) a zero residual gives a zero correction (c79_zero_correction; c79_data_must_vanish shows that removing the data is necessary). Violation: c79_violation_boundary_mobility (exact error at other boundary faces). 2D, without symmetry rotations."
  },
  {
   "property": "C80",
   "status": "partial",
   "theorems": [
    "AMPE.Precond.Props.c80_phase",
    "AMPE.Precond.Props.c80_phase_driving_force",
    "AMPE.Precond.Props.c80_violation_single_well",
    "AMPE.Precond.Props.c80_coupled",
    "AMPE.Precond.Props.c80_temperature",
    "AMPE.Precond.Props.c80_violation_boundary",
    "AMPE.Precond.Props.c80_violation_fixed_temperature"
   ],
   "note": "Proved in 2D for all fields, mobilities, spacings and corrections: an exactly solved phase block, and with precond_has_dTdphi the pair of phase and temperature blocks, solves the linearised implicit step of the program's own rates without driving force (c80_phase, c80_coupled, c80_temperature); the driving force is left out and nothing else (c80_phase_driving_force). Not true in general: c80_violation_single_well (operator and rate use different wells), c80_violation_boundary and c80_violation_fixed_temperature (the coupling block fills ghost cells of the phase correction with the temperature condition). Other blocks (composition, orientation, dPhidT) and refined levels not included."
  },
  {
   "property": "C81",
   "status": "partial",
   "theorems": [
    "AMPE.Interface.Props.c81_stationary",
    "AMPE.Interface.Props.c81_stationary_three",
    "AMPE.Interface.Props.c81_violation_multi",
    "AMPE.Interface.Props.c81_sintering_potential",
    "AMPE.Interface.Props.c81_violation_sintering",
    "AMPE.Interface.Props.c81_energy_at_least",
    "AMPE.Interface.Props.c81_energy_profile",
    "AMPE.Interface.Props.c81_energy_total",
    "AMPE.Interface.Props.c81_antitrapping_width"
   ],
   "note": "Single and three-phase models: proved. Several order parameters: `c81_violation_multi` (the `dsum` of C35 makes both grains grow into their interface). Sintering: the composition potential is right, but the order parameter's gradient term is multiplied by epsilon once too often (`c81_violation_sintering`; stationary exactly if 6 sigma delta = 1). 2D stencils; the anisotropic flux is C36/C63's subject."
  },
  {
   "property": "C82",
   "status": "partial",
   "theorems": [
    "AMPE.ConservedFlow.Props.c82_ch_conserves",
    "AMPE.ConservedFlow.Props.c82_ch_dissipation",
    "AMPE.ConservedFlow.Props.c82_ch_decreases",
    "AMPE.ConservedFlow.Props.c82_ch_mobility",
    "AMPE.ConservedFlow.Props.c82_sinter_conserves",
    "AMPE.ConservedFlow.Props.c82_sinter_dissipation",
    "AMPE.ConservedFlow.Props.c82_sinter_decreases",
    "AMPE.ConservedFlow.Props.c82_violation_mobility"
   ],
   "note": "Conservation and dissipation proved for both models (2D, five-point stencils, periodic). Violated part: the sintering composition rate is multiplied by the mobility twice (`c82_violation_mobility`). The sintering energy that decreases has the order-parameter gradient coefficient epsilon^3/2 actually used by the code (see C81)."
  },
  {
   "property": "C83",
   "status": "partial",
   "theorems": [
    "AMPE.Regrid.Props.c83_refined_mean_2d",
    "AMPE.Regrid.Props.c83_refined_mean_3d",
    "AMPE.Regrid.Props.c83_coarsen",
    "AMPE.Regrid.Props.c83_regrid_amount_2d",
    "AMPE.Regrid.Props.c83_regrid_amount_3d",
    "AMPE.Regrid.Props.c83_derefine_2d",
    "AMPE.Regrid.Props.c83_violation_iff",
    "AMPE.Regrid.Props.c83_edges_2d",
    "AMPE.Regrid.Props.c83_flat_margin_partial",
    "AMPE.Regrid.Props.c83_affine_partial",
    "AMPE.Regrid.Props.c83_bounds_2d",
    "AMPE.Regrid.Props.c83_violation_peak"
   ],
   "note": "Regridding does not conserve: composition and temperature are moved to new fine cells with LINEAR_REFINE, not a conservative operator. Proved: the exact change (2D, 3D, all ratios up to 16), the iff, its reduction to edge differences for a rectangle, conservation when refinement is only kept or removed, when the field is flat across the edges, or affine; bounds preserved. The two SAMRAI operators are modelled after AMPE's derived routines; two levels."
  },
  {
   "property": "C84",
   "status": "partial",
   "theorems": [
    "AMPE.ScalarDiag.Props.c84_solid_fraction",
    "AMPE.ScalarDiag.Props.c84_violation_negative",
    "AMPE.ScalarDiag.Props.c84_violation_negative_iff",
    "AMPE.ScalarDiag.Props.c84_fractions",
    "AMPE.ScalarDiag.Props.c84_fractions_sum",
    "AMPE.ScalarDiag.Props.c84_integral_bounds",
    "AMPE.ScalarDiag.Props.c84_violation_cex",
    "AMPE.ScalarDiag.Props.c84_void_last",
    "AMPE.ScalarDiag.Props.c84_density",
    "AMPE.ScalarDiag.Props.c84_density_bounds",
    "AMPE.ScalarDiag.Props.c84_violation_three_phases",
    "AMPE.ScalarDiag.Props.c84_violation_out_of_range"
   ],
   "note": "Fractions equal averages, sum to one and stay in bounds; density is one minus the void mean. Fails: with one order parameter the printed solid fraction is the mean of |phi| (exact excess proved); three phases take solid A for the void; with all order parameters particles the void component does not exist; Cex is never printed. Diagnostics weights on adaptive grids are C39's failure."
  },
  {
   "property": "C85",
   "status": "partial",
   "theorems": [
    "AMPE.AntiTrap.Props.c85_two_phase_plane",
    "AMPE.AntiTrap.Props.c85_bounded",
    "AMPE.AntiTrap.Props.c85_violation_three_phase_sign",
    "AMPE.AntiTrap.Props.c85_three_phase_symmetric",
    "AMPE.AntiTrap.Props.c85_multi_plane",
    "AMPE.AntiTrap.Props.c85_violation_z_front",
    "AMPE.AntiTrap.Props.c85_violation_z_component",
    "AMPE.AntiTrap.Props.c85_violation_oblique",
    "AMPE.AntiTrap.Props.c85_multi_axis_partial"
   ],
   "note": "Two-phase routine: the specified current for every plane front on x, y, z faces; bound for the two- and three-phase ones. Violations: the three-phase routine has the opposite sign for all fields; the multi-order routine gives a front normal to z no current on z faces, uses the y component and the y neighbours' rate there, and halves tangential gradients so that oblique fronts get too large a current (right exactly when normal or parallel). Partial: fronts normal to x or y."
  },
  {
   "property": "C86",
   "status": "partial",
   "theorems": [
    "AMPE.FieldsFile.Props.c86_write",
    "AMPE.FieldsFile.Props.c86_read_back",
    "AMPE.FieldsFile.Props.c86_roundtrip_partial",
    "AMPE.FieldsFile.Props.c86_violation_order_parameters",
    "AMPE.FieldsFile.Props.c86_violation_two_grains",
    "AMPE.FieldsFile.Props.c86_violation_reduced_temperature",
    "AMPE.FieldsFile.Props.c86_violation_slice",
    "AMPE.FieldsFile.Props.c86_wrong_size"
   ],
   "note": "Proved for one order parameter and for the three-phase model: writing succeeds, reading succeeds on any later decomposition and gives the saved state rounded to the file's precision. Violated with several order parameters (only the first is stored and it is read into all the others), for the temperature in reduced units (divided twice by the factor), and slice_index never has an effect in 2D; each is characterised exactly. NetCDF itself is modelled as an array store; without phase variable or with eta is not modelled."
  },
  {
   "property": "C87",
   "status": "partial",
   "theorems": [
    "AMPE.Selection.Props.c87_split_iff",
    "AMPE.Selection.Props.c87_split_other",
    "AMPE.Selection.Props.c87_split_partial",
    "AMPE.Selection.Props.c87_violation_two_phases",
    "AMPE.Selection.Props.c87_violation_three_phases",
    "AMPE.Selection.Props.c87_violation_pure_element",
    "AMPE.Selection.Props.c87_mobility_iff",
    "AMPE.Selection.Props.c87_aziz_iff"
   ],
   "note": "Violated by the code: exact characterisations of when the compositions of the phases (c87_split_iff), Kim's mobility (c87_mobility_iff) and Aziz' partition coefficient (c87_aziz_iff) use the free energies of the driving force; violations for CALPHAD binaries with several order parameters and for the pure-element override. The identity compared is that of the Thermo4PFM class; Thermo4PFM itself is not in the repository."
  },
  {
   "property": "C88",
   "status": "partial",
   "theorems": [
    "AMPE.Selection.Props.c88_diffusion_iff",
    "AMPE.Selection.Props.c88_mobility_iff",
    "AMPE.Selection.Props.c88_energy_alloy_iff",
    "AMPE.Selection.Props.c88_energy_pure_iff",
    "AMPE.Selection.Props.c88_alloy_iff",
    "AMPE.Selection.Props.c88_defaults_partial",
    "AMPE.Selection.Props.c88_violation_misspelt",
    "AMPE.Selection.Props.c88_violation_flat_liquidus",
    "AMPE.Selection.Props.c88_violation_spinodal",
    "AMPE.Selection.Props.c88_split_exists_iff",
    "AMPE.Selection.Props.c88_form_iff",
    "AMPE.Selection.Props.c88_mobility_type",
    "AMPE.Selection.Props.c88_kim_iff",
    "AMPE.Selection.Props.c88_assigned_iff",
    "AMPE.Selection.Props.c88_used_iff",
    "AMPE.Selection.Props.c88_used_gradient",
    "AMPE.Selection.Props.c88_form_runs"
   ],
   "note": "Violated by the code: c88_alloy_iff and c88_energy_pure_iff characterise the settings for which a constant is used without having been read (misspelt diffusion_type, diffusion_type = mobility, flat liquidus, missing latent heat); c88_defaults_partial proves the claim for the default type of diffusion. Constants covered: those of `Const`; molar volumes, interface parameters and mobilities read with getDouble are not."
  },
  {
   "property": "C89",
   "status": "partial",
   "theorems": [
    "AMPE.MobDiff.Props.c89_product",
    "AMPE.MobDiff.Props.c89_flux",
    "AMPE.MobDiff.Props.c89_binary",
    "AMPE.MobDiff.Props.c89_commuting_partial",
    "AMPE.MobDiff.Props.c89_correct_iff",
    "AMPE.MobDiff.Props.c89_violation_ideal_iff",
    "AMPE.MobDiff.Props.c89_violation_absent_species",
    "AMPE.MobDiff.Props.c89_violation_dissipation",
    "AMPE.MobDiff.Props.c89_wanted_dissipates",
    "AMPE.MobDiff.Props.c89_layout",
    "AMPE.MobDiff.Props.c89_layout_injective"
   ],
   "note": "Flux of the composition-dependent diffusion strategy, composed from the matrix product, the per-face storage and the flux loop. Correct for one composition, and for several whenever mobility and Hessian are symmetric and commute (`c89_commuting_partial`); `c89_correct_iff` says exactly when. Violated in general: the product is stored row by row and read column by column, so the flux is H M grad c instead of M H grad c. For an ideal ternary solution it is right only if c1 (M2-M0) = c0 (M2-M1); a species that is absent still flows; and the flux can raise the free energy."
  },
  {
   "property": "C90",
   "status": "partial",
   "theorems": [
    "AMPE.GradT.Props.c90_complete",
    "AMPE.GradT.Props.c90_plain",
    "AMPE.GradT.Props.c90_antitrapping_partial",
    "AMPE.GradT.Props.c90_violation_antitrapping",
    "AMPE.GradT.Props.c90_violation_thermal",
    "AMPE.GradT.Props.c90_violation_second_key",
    "AMPE.GradT.Props.c90_violation_recursion",
    "AMPE.GradT.Props.c90_uniform",
    "AMPE.GradT.Props.c90_pure",
    "AMPE.GradT.Props.c90_mixture",
    "AMPE.GradT.Props.c90_both",
    "AMPE.GradT.Props.c90_mobility",
    "AMPE.GradT.Props.c90_violation_rename_iff",
    "AMPE.GradT.Props.c90_middle_partial",
    "AMPE.GradT.Props.c90_violation_factor"
   ],
   "note": "A flux that is computed contains exactly the requested terms; anti-trapping works with the `ebs` form only and stops the run with the others; thermal diffusion stops the run with every form, because the class that has it is never built (its own coefficient setter would call itself for ever). The coefficient of that class is also proved to depend on which species is called the first (exact condition given) and to carry an extra factor c(1-c). Third phase of the coefficient not modelled."
  },
  {
   "property": "C91",
   "status": "partial",
   "theorems": [
    "AMPE.PhaseSplit.Props.c91_split_two",
    "AMPE.PhaseSplit.Props.c91_split_many",
    "AMPE.PhaseSplit.Props.c91_split_many_value",
    "AMPE.PhaseSplit.Props.c91_split_many_three",
    "AMPE.PhaseSplit.Props.c91_split_three_partial",
    "AMPE.PhaseSplit.Props.c91_violation_split_three_iff",
    "AMPE.PhaseSplit.Props.c91_violation_default",
    "AMPE.PhaseSplit.Props.c91_diffusion_two",
    "AMPE.PhaseSplit.Props.c91_diffusion_beckermann",
    "AMPE.PhaseSplit.Props.c91_diffusion_many_partial",
    "AMPE.PhaseSplit.Props.c91_violation_harmonic",
    "AMPE.PhaseSplit.Props.c91_violation_sharp",
    "AMPE.PhaseSplit.Props.c91_diffusion_three_partial",
    "AMPE.PhaseSplit.Props.c91_violation_diffusion_three",
    "AMPE.PhaseSplit.Props.c91_violation_biased",
    "AMPE.PhaseSplit.Props.c91_fick",
    "AMPE.PhaseSplit.Props.c91_fick_one_partial"
   ],
   "note": "Proved for the split with one order parameter, with several order parameters of two phases and (normalised squares) of three phases, for the diffusion coefficients of one order parameter and of Beckermann's form, and for the flux built from them. Violated: with three order parameters of three phases the fractions add up to 1-6abc ('h') or 1-30abc(ab+bc+ca) ('p', the default), so the split is wrong exactly where three phases meet; with several order parameters and harmonic averages (the default) the diffusion coefficients add up to less than the common one exactly where neighbouring cells differ, and to zero across a sharp front; 'biased' interpolation is accepted by the input and stops the run. The solver of the split is external (Thermo4PFM); its contract is a hypothesis."
  },
  {
   "property": "C92",
   "status": "partial",
   "theorems": [
    "AMPE.RateCall.Props.c92_function_partial",
    "AMPE.RateCall.Props.c92_difference_partial",
    "AMPE.RateCall.Props.c92_violation_lag",
    "AMPE.RateCall.Props.c92_violation_lag_differs",
    "AMPE.RateCall.Props.c92_aziz_returns",
    "AMPE.RateCall.Props.c92_violation_aziz",
    "AMPE.RateCall.Props.c92_aziz_consistent_partial",
    "AMPE.RateCall.Props.c92_violation_aziz_unfinished",
    "AMPE.RateCall.Props.c92_violation_aziz_difference",
    "AMPE.RateCall.Props.c92_violation_no_velocity",
    "AMPE.RateCall.Props.c92_violation_velocity_cache",
    "AMPE.RateCall.Props.c92_velocity_partial",
    "AMPE.RateCall.Props.c92_violation_noise",
    "AMPE.RateCall.Props.c92_violation_heat",
    "AMPE.RateCall.Props.c92_violation_rigid",
    "AMPE.RateCall.Props.c92_violation_steady",
    "AMPE.RateCall.Props.c92_preconditioner_lags"
   ],
   "note": "c92_function_partial: for any list of earlier calls within the step (rates of other states and times, finite differences, preconditioner setups), the rate is one function of time, state and the arrays of the last accepted step, without Aziz's partition coefficient and without noise; c92_difference_partial: with lag_quat_sidegrad = FALSE finite differences use the same function. c92_violation_lag(_differs): with the default lag, finite differences keep the diffusion coefficients of the composition and the orientation gradients of the last residual, also in runs without orientations. c92_violation_heat / _steady: heat capacity and composition-driven steady temperature come from the last accepted step; c92_violation_rigid: so do the compositions in the forces between grains (rbThreshold > 0). c92_violation_noise: a new draw whenever the time differs from that of the previous evaluation. Aziz's model: the fixed-point loop compares an array of the integrator that nothing writes with itself, so it ends after one pass (c92_aziz_returns; assumes the array holds finite numbers, hypothesis hcl). c92_violation_aziz: the phase rate is that for the velocity left by the previous evaluation; c92_violation_aziz_unfinished: it fits the new velocity exactly if one more pass would not change it; c92_aziz_consistent_partial: consistent at a fixed point. c92_violation_no_velocity: with velocity_output = FALSE no evaluation returns; c92_violation_aziz_difference: finite differences use the velocity left by another state; c92_violation_velocity_cache: phase gradient kept from the first state evaluated at that time. c92_preconditioner_lags: coefficients of the preconditioner are one evaluation behind."
  },
  {
   "property": "C93",
   "status": "partial",
   "theorems": [
    "AMPE.Frame.Props.c93_equivalent_partial",
    "AMPE.Frame.Props.c93_violation_orientation",
    "AMPE.Frame.Props.c93_unsteady",
    "AMPE.Frame.Props.c93_violation_aziz",
    "AMPE.Frame.Props.c93_violation_aziz_steady",
    "AMPE.Frame.Props.c93_violation_rest"
   ],
   "note": "c93_equivalent_partial: fields solve the laboratory equations as evaluated by the program exactly if, seen from the frame, they solve the moving-frame equations (phase, composition, temperature; rigid motion with forces that are the same in both frames, anti-trapping, latent heat), on a homogeneous unbounded medium without mesh (frame-term discretisation: C46; frozen gradient: C70). c93_violation_orientation: the orientation has no frame term, so the equivalence holds only for orientations uniform along the motion. c93_violation_aziz(_steady): the velocity for Aziz's partition coefficient is relative to the frame, zero for a steady front. c93_violation_rest: adapting a frame that starts at rest dereferences a null pointer."
  },
  {
   "property": "C94",
   "status": "partial",
   "theorems": [
    "AMPE.Frame.Props.c94_front_partial",
    "AMPE.Frame.Props.c94_violation_small",
    "AMPE.Frame.Props.c94_error_partial",
    "AMPE.Frame.Props.c94_violation_refinement",
    "AMPE.Frame.Props.c94_violation_limit",
    "AMPE.Frame.Props.c94_violation_trapping",
    "AMPE.Frame.Props.c94_cells"
   ],
   "note": "c94_front_partial, c94_error_partial, c94_cells: independence of direction, exact factor and bound on the error. c94_violation_small: too small everywhere. c94_violation_refinement, _limit, _trapping: the cut-off 0.02/dx grows under refinement, the velocity and with it solute trapping vanish."
  },
  {
   "property": "C95",
   "status": "partial",
   "theorems": [
    "AMPE.Boundary.Props.c95_condition",
    "AMPE.Boundary.Props.c95_frame",
    "AMPE.Boundary.Props.c95_zero_gradient",
    "AMPE.Boundary.Props.c95_violation_fixed_value",
    "AMPE.Boundary.Props.c95_violation_quaternion",
    "AMPE.Boundary.Props.c95_sum",
    "AMPE.Boundary.Props.c95_prescribed_flux",
    "AMPE.Boundary.Props.c95_repeats",
    "AMPE.Boundary.Props.c95_no_flux",
    "AMPE.Boundary.Props.c95_conserves",
    "AMPE.Boundary.Props.c95_fourth_order_reads",
    "AMPE.Boundary.Props.c95_upwind_reads",
    "AMPE.Boundary.Props.c95_violation_cahn_hilliard",
    "AMPE.Boundary.Props.c95_violation_sintering",
    "AMPE.Boundary.Props.c95_cahn_hilliard_conserves_partial",
    "AMPE.Boundary.Props.c95_ghosts"
   ],
   "note": "The boundary condition a u + b u_n = g holds on every face for every component (c95_condition), with closed boxes conserving every species for the three diffusion stencils. Fails: one coefficient set per variable, so fixed values are not rotations/fractions in general (c95_violation_fixed_value, c95_violation_quaternion); Cahn-Hilliard and sintering rates read the second ghost layer, which no condition sets (c95_violation_cahn_hilliard, c95_violation_sintering). Conservation there only if the second layer mirrors the inside (_partial)."
  },
  {
   "property": "C96",
   "status": "partial",
   "theorems": [
    "AMPE.Coupling.Props.c96_kks_linear",
    "AMPE.Coupling.Props.c96_kks_uniform_linear",
    "AMPE.Coupling.Props.c96_kks_uniform_partial",
    "AMPE.Coupling.Props.c96_violation_kks_h",
    "AMPE.Coupling.Props.c96_violation_kks_mixed",
    "AMPE.Coupling.Props.c96_violation_kks_second_species",
    "AMPE.Coupling.Props.c96_beckermann_linear",
    "AMPE.Coupling.Props.c96_beckermann_zero_iff",
    "AMPE.Coupling.Props.c96_violation_beckermann_nonlinear",
    "AMPE.Coupling.Props.c96_violation_beckermann_neighbour",
    "AMPE.Coupling.Props.c96_violation_beckermann_ghosts",
    "AMPE.Coupling.Props.c96_addresses"
   ],
   "note": "Proved for linear interpolation (both forms, x and y faces, any state): the flux is driven by the differences of the phase compositions, and vanishes where they are uniform. Violations proved: KKS with p/h interpolation leaves a third-order flux (nonzero for h wherever the phase changes), KKS takes h' from the energy interpolation even when the composition is mixed linearly, KKS gives every species the coupling of the first; Beckermann lacks h', reads the wrong neighbour of the partition coefficient on y faces, and addresses the composition with the ghost box of the partition coefficient."
  },
  {
   "property": "C97",
   "status": "proved",
   "theorems": [
    "AMPE.FACSolve.Props.c97_reported_norm",
    "AMPE.FACSolve.Props.c97_tolerance",
    "AMPE.FACSolve.Props.c97_cycles",
    "AMPE.FACSolve.Props.c97_violation_equality",
    "AMPE.FACSolve.Props.c97_factors",
    "AMPE.FACSolve.Props.c97_violation_max_cycles",
    "AMPE.FACSolve.Props.c97_recursive_eq_unrolled",
    "AMPE.FACSolve.Props.c97_scratch_irrelevant",
    "AMPE.FACSolve.Props.c97_exact_guess",
    "AMPE.FACSolve.Props.c97_linear",
    "AMPE.FACSolve.Props.c97_linear_one_cycle",
    "AMPE.FACSolve.Props.c97_converges",
    "AMPE.FACSolve.Props.c97_two_levels",
    "AMPE.FACSolve.Props.c97_violation_mccormick",
    "AMPE.FACSolve.Props.c97_violation_mccormick_fails",
    "AMPE.FACSolve.Props.c97_violation_linear"
   ],
   "note": "Multilevel solver (FACPreconditioner): for every set of operators, every cycle kind and any scratch data, the reported norm is the norm of the composite residual of the returned (level-consistent) solution and `true` means that norm is below max(tol, rtol*|f|); 1 <= cycles <= max_cycles, stopping at the first cycle that reaches the tolerance; convergence factors multiply to final/initial norm; recursive and unrolled cycle are the same; no state is carried from solve to solve; an exact initial guess is returned unchanged; with linear operators the map rhs -> result is linear whenever the number of cycles is the same (in particular max_cycles = 1); contraction implies reported success. Violations proved: the McCormick cycle never uses the restricted residual and can fail for ever where the default cycle is exact; tolerance-controlled cycles are not a linear map; stopping exactly at the tolerance is reported as failure; max_cycles <= 0 writes past the factor array."
  },
  {
   "property": "C98",
   "status": "partial",
   "theorems": [
    "AMPE.StepCall.Props.c98_clocks",
    "AMPE.StepCall.Props.c98_step_time",
    "AMPE.StepCall.Props.c98_first_step",
    "AMPE.StepCall.Props.c98_regrid_continues",
    "AMPE.StepCall.Props.c98_underway",
    "AMPE.StepCall.Props.c98_violation_edit",
    "AMPE.StepCall.Props.c98_reset_takes_edit",
    "AMPE.StepCall.Props.c98_violation_relax",
    "AMPE.StepCall.Props.c98_violation_warm_start",
    "AMPE.StepCall.Props.c98_violation_setTimestep",
    "AMPE.StepCall.Props.c98_violation_temperature",
    "AMPE.StepCall.Props.c98_state_partial",
    "AMPE.StepCall.Props.c98_step_statistics",
    "AMPE.StepCall.Props.c98_violation_totals"
   ],
   "note": "Clocks, steps, regrids, first step and per-step statistics are proved for every sequence of events and every library. Violated: changes of the fields between two steps (fundamental zone, grain reset) are lost because the integrator keeps its own copy and the call that resets it is commented out; the same for the relaxation integrator and for regrids with use_warm_start; setTimestep during a run turns the integrator's clock back to its creation time; with a computed temperature the temperature left in the run is the one of the last rate evaluation; totals count only since the last regrid."
  },
  {
   "property": "C99",
   "status": "partial",
   "theorems": [
    "AMPE.CoarseFine.Props.c99_exact2",
    "AMPE.CoarseFine.Props.c99_spacing_partial",
    "AMPE.CoarseFine.Props.c99_untouched2",
    "AMPE.CoarseFine.Props.c99_violation_components",
    "AMPE.CoarseFine.Props.c99_exchange2",
    "AMPE.CoarseFine.Props.c99_violation_constant_refine",
    "AMPE.CoarseFine.Props.c99_linear_refine",
    "AMPE.CoarseFine.Props.c99_default",
    "AMPE.CoarseFine.Props.c99_violation_orientation",
    "AMPE.CoarseFine.Props.c99_exact3",
    "AMPE.CoarseFine.Props.c99_untouched3"
   ],
   "note": "Exactness on linear fields (2D and 3D, every boundary, every ratio), locality and dissipative exchange are proved for the elliptic solvers. Violated: for systems the correction uses the coefficient of the first component; CONSTANT_REFINE is accepted and inexact; the orientation solver has no correction and aborts on finer levels with its default. Partial: the spacing passed is that of the coarsest level (C59), which scales all fluxes alike."
  },
  {
   "property": "C100",
   "status": "partial",
   "theorems": [
    "AMPE.QuatPrecond.Props.c100_gate",
    "AMPE.QuatPrecond.Props.c100_solves",
    "AMPE.QuatPrecond.Props.c100_linearised",
    "AMPE.QuatPrecond.Props.c100_uncoupled",
    "AMPE.QuatPrecond.Props.c100_violation_coupling",
    "AMPE.QuatPrecond.Props.c100_coupling_partial",
    "AMPE.QuatPrecond.Props.c100_violation_mobility",
    "AMPE.QuatPrecond.Props.c100_coupled",
    "AMPE.QuatPrecond.Props.c100_blocks_once",
    "AMPE.QuatPrecond.Props.c100_order",
    "AMPE.QuatPrecond.Props.c100_violation_both",
    "AMPE.QuatPrecond.Props.c100_retcode",
    "AMPE.QuatPrecond.Props.c100_violation_last_order_parameter"
   ],
   "note": "The orientation correction solves z - gamma*rate(z) = rhs exactly for every positive mobility (c100_solves, c100_linearised: coefficients frozen, before projection), the gate refuses exactly the non-positive mobilities, every component gets one block, the return code is 0 iff all blocks converged. Violated: the coupling to the phase uses sqrt(M) instead of M (source/QuatFACOps.cc:1954-1956) and omits the epsilon_q weight (c100_violation_coupling gives the exact difference, c100_violation_mobility); with both phase/temperature couplings on, the temperature block reads a stale phase correction (c100_violation_both); with several order parameters only the last correction is seen. Not covered: projection onto the tangent space for depth > 1, dependence of the diffusion coefficient on |grad q|, several levels, 3D."
  },
  {
   "property": "C101",
   "status": "partial",
   "theorems": [
    "AMPE.Restart.Props.c101_single_level_partial",
    "AMPE.Restart.Props.c101_no_stale_memory",
    "AMPE.Restart.Props.c101_violation_levels",
    "AMPE.Restart.Props.c101_resumes_iff",
    "AMPE.Restart.Props.c101_violation_fine_data",
    "AMPE.Restart.Props.c101_violation_temperature",
    "AMPE.Restart.Props.c101_guess_partial",
    "AMPE.Restart.Props.c101_violation_guess_zero",
    "AMPE.Restart.Props.c101_new_run_guess",
    "AMPE.Restart.Props.c101_violation_guess_reference",
    "AMPE.Restart.Props.c101_violation_velocity",
    "AMPE.Restart.Props.c101_file",
    "AMPE.Restart.Props.c101_memory_iff",
    "AMPE.Restart.Props.c101_violation_fine_rest",
    "AMPE.Restart.Props.c101_diagnostics_change",
    "AMPE.Restart.Props.c101_step_change",
    "AMPE.Restart.Props.c101_grain_decisions",
    "AMPE.Restart.Props.c101_violation_grains",
    "AMPE.Restart.Props.c101_grains_partial",
    "AMPE.Restart.Props.c101_violation_amr",
    "AMPE.Restart.Props.c101_violation_amr_default",
    "AMPE.Restart.Props.c101_same_amr_partial"
   ],
   "note": "Proved on one level: the run resumes with exactly the written solution and phase compositions, independent of old memory contents (c101_single_level_partial, c101_no_stale_memory), with the saved starting point for the phase-equilibrium solver when no diagnostics run first and no reference compositions are set (c101_guess_partial), the same grain decisions when the count did not drop across the restart (c101_grains_partial) and the same mesh for the same input (c101_same_amr_partial). Violations of the full claim: a run with more than one level allowed cannot be resumed at all because the refine algorithm is still null (c101_violation_levels, c101_resumes_iff), and would lose its fine data otherwise (c101_violation_fine_data); a prescribed temperature is reset to time 0 (c101_violation_temperature); the solver gets guess zero after initial diagnostics (c101_violation_guess_zero) or the input references (c101_violation_guess_reference); interface velocity is zero in the printed energy (c101_violation_velocity); a drop of the grain count across the restart is missed (c101_violation_grains); the AMR switch of the input is ignored (c101_violation_amr)."
  },
  {
   "property": "C102",
   "status": "partial",
   "theorems": [
    "AMPE.Remesh.Props.c102_composition",
    "AMPE.Remesh.Props.c102_phase_partial",
    "AMPE.Remesh.Props.c102_violation_deleted",
    "AMPE.Remesh.Props.c102_violation_schedules",
    "AMPE.Remesh.Props.c102_violation_released",
    "AMPE.Remesh.Props.c102_violation_growth",
    "AMPE.Remesh.Props.c102_repair"
   ],
   "note": "Composition: proved for all histories (c102_composition). Phase: proved until the first regridding, i.e. always for one level (c102_phase_partial). After a regridding the full claim is false: the strategy keeps a pointer to a deleted time integrator (c102_violation_deleted), and its coarsening schedules are those of the start (c102_violation_schedules), which use released data (c102_violation_released) or run past the end of the vector (c102_violation_growth). c102_repair shows that renewing both restores the claim. Flux contents are not modelled; SAMRAI is represented by the identity of level objects."
  },
  {
   "property": "C103",
   "status": "partial",
   "theorems": [
    "AMPE.Noise.Props.c103_field",
    "AMPE.Noise.Props.c103_bulk",
    "AMPE.Noise.Props.c103_range",
    "AMPE.Noise.Props.c103_even",
    "AMPE.Noise.Props.c103_bound",
    "AMPE.Noise.Props.c103_outside",
    "AMPE.Noise.Props.c103_violation_ranks",
    "AMPE.Noise.Props.c103_violation_dependent",
    "AMPE.Noise.Props.c103_violation_first",
    "AMPE.Noise.Props.c103_step_partial",
    "AMPE.Noise.Props.c103_scaling",
    "AMPE.Noise.Props.c103_start",
    "AMPE.Noise.Props.c103_off",
    "AMPE.Noise.Props.c103_violation_resumed",
    "AMPE.Noise.Props.c103_violation_remeshed",
    "AMPE.Noise.Props.c103_violation_order",
    "AMPE.Noise.Props.c103_violation_ignored"
   ],
   "note": "Field, range of the numbers, bounds and scaling proved for all boxes, ranks and draws; one field per step with the step's length in a run that is neither resumed nor regridded (_partial). Violations: ranks 0 and 1 draw identical numbers and all ranks multiples of one stream; first draws of all ranks up to 4448 are below -0.4; a resumed run scales its first step with T+h and adds noise before it; the evaluation after a regridding adds uninitialised memory; a finite difference evaluated first keeps the previous step's field; the amplitude is ignored with several order parameters or three phases. The random generator is described from the library's documentation, not from repository code."
  },
  {
   "property": "C104",
   "status": "partial",
   "theorems": [
    "AMPE.PhaseConc.Props.c104_present",
    "AMPE.PhaseConc.Props.c104_storage",
    "AMPE.PhaseConc.Props.c104_storage_fluxes",
    "AMPE.PhaseConc.Props.c104_elsewhere",
    "AMPE.PhaseConc.Props.c104_cells_x",
    "AMPE.PhaseConc.Props.c104_cells_y",
    "AMPE.PhaseConc.Props.c104_flux_present",
    "AMPE.PhaseConc.Props.c104_patch_partial",
    "AMPE.PhaseConc.Props.c104_violation_ghosts",
    "AMPE.PhaseConc.Props.c104_violation_flux",
    "AMPE.PhaseConc.Props.c104_workspace_partial",
    "AMPE.PhaseConc.Props.c104_violation_workspace"
   ],
   "note": "Proved for the KKS routines (CALPHAD, quadratic, multi-order, three-phase, dilute) with all stencils, patches and ghost widths. Violated by the partition and phase-independent routines, which fill the patch only while the fluxes read one or two cells around it (c104_violation_ghosts, c104_violation_flux), and by the fixed work arrays of the CALPHAD routine for ternary alloys with three or more order parameters (c104_violation_workspace). Two dimensions; the library solver is a parameter."
  },
  {
   "property": "C105",
   "status": "partial",
   "theorems": [
    "AMPE.DrivingForce.Props.c105_rate",
    "AMPE.DrivingForce.Props.c105_local",
    "AMPE.DrivingForce.Props.c105_two_phases",
    "AMPE.DrivingForce.Props.c105_plot",
    "AMPE.DrivingForce.Props.c105_plot_binary",
    "AMPE.DrivingForce.Props.c105_violation_plot",
    "AMPE.DrivingForce.Props.c105_recorded_rate",
    "AMPE.DrivingForce.Props.c105_violation_recorded",
    "AMPE.DrivingForce.Props.c105_units_partial",
    "AMPE.DrivingForce.Props.c105_violation_units",
    "AMPE.DrivingForce.Props.c105_force_binary",
    "AMPE.DrivingForce.Props.c105_force_ternary",
    "AMPE.DrivingForce.Props.c105_force_multi",
    "AMPE.DrivingForce.Props.c105_force_multi_tangent",
    "AMPE.DrivingForce.Props.c105_equilibrium",
    "AMPE.DrivingForce.Props.c105_equilibrium_ternary"
   ],
   "note": "Rate: c105_rate (every cell and order parameter gets the force of its own data, stale energies do not matter, nothing else changes), c105_local, c105_two_phases. Plots: c105_plot, c105_plot_binary, c105_recorded_rate; violations: the plotted driving force lacks the interpolation factor for the CALPHAD and dilute strategies but not for the others (c105_violation_plot), phase_rhs is recorded before mobility, noise, grain motion and frame (c105_violation_recorded), second derivatives of the ternary three-phase quadratic energy are converted for three of four entries (c105_violation_units). The body of the loop is a parameter (all strategies have the same loop); expressions of the binary, ternary and CALPHAD multi-order strategies are given, the three-phase tilting expression is treated under C72. The force of every strategy is minus the slope of the grand potential of the mixture (c105_force_binary, _ternary, _multi), leaves the common factor of the order parameters alone (c105_force_multi_tangent) and vanishes at equilibrium (c105_equilibrium, c105_equilibrium_ternary)."
  },
  {
   "property": "C106",
   "status": "partial",
   "theorems": [
    "AMPE.Rescale.Props.c106_unit",
    "AMPE.Rescale.Props.c106_melt_force",
    "AMPE.Rescale.Props.c106_melt_difference",
    "AMPE.Rescale.Props.c106_melt_sign",
    "AMPE.Rescale.Props.c106_well_partial",
    "AMPE.Rescale.Props.c106_violation_beckermann",
    "AMPE.Rescale.Props.c106_violation_pure_well",
    "AMPE.Rescale.Props.c106_orientation",
    "AMPE.Rescale.Props.c106_heat",
    "AMPE.Rescale.Props.c106_heat3",
    "AMPE.Rescale.Props.c106_energy",
    "AMPE.Rescale.Props.c106_model_boundary",
    "AMPE.Rescale.Props.c106_violation_boundary",
    "AMPE.Rescale.Props.c106_violation_condition",
    "AMPE.Rescale.Props.c106_stencil",
    "AMPE.Rescale.Props.c106_evolution_partial",
    "AMPE.Rescale.Props.c106_violation_evolution",
    "AMPE.Rescale.Props.c106_insulated",
    "AMPE.Rescale.Props.c106_violation_arrhenius",
    "AMPE.Rescale.Props.c106_violation_output"
   ],
   "note": "Violated in four places. The integrator passes the temperature factor in the position of the number of ghost cells, so prescribed boundary values are not rescaled and the run solves the problem with every boundary value multiplied by the melting temperature (c106_violation_evolution); Beckermann wells, pure-material wells and Arrhenius coefficients are evaluated with unscaled parameters; the output is in reduced units and is divided again when read back. Proved: exact equivalence with the problem in kelvin for the melting force, linear-alloy wells, orientation term, heat equation (2D and 3D), thermal energy and the model's own boundary values, and for complete solutions with homogeneous boundary conditions. Not modelled: CALPHAD and other library free energies, temperature-dependent heat capacity (C68), 3D version of the coupled statement."
  },
  {
   "property": "C107",
   "status": "partial",
   "theorems": [
    "AMPE.Projection.Props.c107_orientation",
    "AMPE.Projection.Props.c107_defined",
    "AMPE.Projection.Props.c107_phases_partial",
    "AMPE.Projection.Props.c107_violation_fine",
    "AMPE.Projection.Props.c107_violation_everywhere",
    "AMPE.Projection.Props.c107_rest",
    "AMPE.Projection.Props.c107_fixed"
   ],
   "note": "Violated for three phases on refined levels: projectPhases visits level 0 only, so the phase fractions of finer cells are not corrected (c107_violation_fine, c107_violation_everywhere). Proved: orientations are projected in every cell of every level, phases on level 0 to the nearest admissible point, nothing else is touched, admissible states are fixed, and the call fails exactly at a vanishing quaternion. CVODE's use of the correction is the documented contract; disjoint patches are assumed."
  },
  {
   "property": "C108",
   "status": "partial",
   "theorems": [
    "AMPE.MeltFlow.Props.c108_defined",
    "AMPE.MeltFlow.Props.c108_balance",
    "AMPE.MeltFlow.Props.c108_decay_partial",
    "AMPE.MeltFlow.Props.c108_rest_partial",
    "AMPE.MeltFlow.Props.c108_monotone_partial",
    "AMPE.MeltFlow.Props.c108_bounded_partial",
    "AMPE.MeltFlow.Props.c108_violation_interpolation",
    "AMPE.MeltFlow.Props.c108_violation_case",
    "AMPE.MeltFlow.Props.c108_balance3",
    "AMPE.MeltFlow.Props.c108_decay3_partial",
    "AMPE.MeltFlow.Props.c108_monotone3_partial"
   ],
   "note": "Exact balance of interface energy plus stored thermal free energy proved for both pure-melt free energy strategies, every interpolation, 2D and 3D, periodic single level with uniform heat capacity. Decrease (also over all times, with rest and boundedness corollaries) holds for the linear interpolation. For the others the claim is violated: the latent heat is released with the rate of phi and not of h(phi); c108_violation_interpolation gives the exact rate for uniform samples and c108_violation_case a growing one."
  },
  {
   "property": "C109",
   "status": "partial",
   "theorems": [
    "AMPE.PrecondCall.Props.c109_applied",
    "AMPE.PrecondCall.Props.c109_function_partial",
    "AMPE.PrecondCall.Props.c109_system_partial",
    "AMPE.PrecondCall.Props.c109_linear_partial",
    "AMPE.PrecondCall.Props.c109_identity",
    "AMPE.PrecondCall.Props.c109_recoverable",
    "AMPE.PrecondCall.Props.c109_setup",
    "AMPE.PrecondCall.Props.c109_setup_sound",
    "AMPE.PrecondCall.Props.c109_violation_empty",
    "AMPE.PrecondCall.Props.c109_violation_content",
    "AMPE.PrecondCall.Props.c109_violation_stale",
    "AMPE.PrecondCall.Props.c109_violation_last"
   ],
   "note": "Every component of z is written from r alone, block lower triangular, linear, return code 0 iff all block solves converged, for every configuration with precond_has_dPhidT off (the default). Violated with precond_has_dPhidT on (z depends on the previous content of z and of a work array), for couplings with several order parameters (only the last is seen) and for an empty Preconditioner block (changes a default). Block solvers are parameters; ghost values not represented."
  },
  {
   "property": "C110",
   "status": "partial",
   "theorems": [
    "AMPE.AlloyFlow.Props.c110_defined",
    "AMPE.AlloyFlow.Props.c110_balance",
    "AMPE.AlloyFlow.Props.c110_decay_partial",
    "AMPE.AlloyFlow.Props.c110_ebs_downhill",
    "AMPE.AlloyFlow.Props.c110_kks_downhill_partial",
    "AMPE.AlloyFlow.Props.c110_monotone_partial",
    "AMPE.AlloyFlow.Props.c110_rest_partial",
    "AMPE.AlloyFlow.Props.c110_no_cycle_partial",
    "AMPE.AlloyFlow.Props.c110_violation_kks",
    "AMPE.AlloyFlow.Props.c110_violation_uniform",
    "AMPE.AlloyFlow.Props.c110_violation_volumes",
    "AMPE.AlloyFlow.Props.c110_violation_interpolations"
   ],
   "note": "c110_balance is exact for one molar volume and one interpolation and any solute flux: the reported energy changes at minus (mobility times squared force plus power of the fluxes against the chemical potential); phases are any strictly convex C1 molar energies, the split of the composition is only known through its two equations. Never increasing (c110_decay_partial, c110_monotone_partial), strictly decreasing unless at rest (c110_rest_partial), no cycles (c110_no_cycle_partial) for the ebs form with the code's coefficients; c110_kks_downhill_partial for the kks form with linear interpolation. Fails with two molar volumes (c110_violation_volumes), with different interpolations of energy and composition (c110_violation_interpolations) and for the default kks form with interpolation p (c110_violation_kks); c110_violation_uniform gives the exact rate of a uniform sample in all cases. 2D, periodic, isothermal, one composition, two phases, one level; time is continuous."
  },
  {
   "property": "C111",
   "status": "partial",
   "theorems": [
    "AMPE.StartGuess.Props.c111_step",
    "AMPE.StartGuess.Props.c111_order_independent",
    "AMPE.StartGuess.Props.c111_run",
    "AMPE.StartGuess.Props.c111_references_calphad",
    "AMPE.StartGuess.Props.c111_settings",
    "AMPE.StartGuess.Props.c111_violation_order",
    "AMPE.StartGuess.Props.c111_violation_unset",
    "AMPE.StartGuess.Props.c111_restart_partial",
    "AMPE.StartGuess.Props.c111_violation_restart_diagnostics",
    "AMPE.StartGuess.Props.c111_violation_restart_reference",
    "AMPE.StartGuess.Props.c111_violation_regrid",
    "AMPE.StartGuess.Props.c111_first_guess",
    "AMPE.StartGuess.Props.c111_violation_equilibrium_unused",
    "AMPE.StartGuess.Props.c111_equilibrium_used",
    "AMPE.StartGuess.Props.c111_violation_species",
    "AMPE.StartGuess.Props.c111_violation_array",
    "AMPE.StartGuess.Props.c111_bracket",
    "AMPE.StartGuess.Props.c111_equilibrium_checked",
    "AMPE.StartGuess.Props.c111_equilibrium_abort",
    "AMPE.StartGuess.Props.c111_first_ceq",
    "AMPE.StartGuess.Props.c111_first_ceq_two",
    "AMPE.StartGuess.Props.c111_violation_solid_unchecked",
    "AMPE.StartGuess.Props.c111_violation_third_phase",
    "AMPE.StartGuess.Props.c111_uniform",
    "AMPE.StartGuess.Props.c111_settings_usable",
    "AMPE.StartGuess.Props.c111_violation_settings",
    "AMPE.StartGuess.Props.c111_settings_values"
   ],
   "note": "Proved for all solvers, cells and evaluation lists: for CALPHAD with one order parameter (or three phases, or two species) each evaluation of a step starts from the compositions at its beginning, so evaluations do not influence each other and a run is the repetition of the specified step; restart without reference settings and diagnostics is exact; estimates of the equilibrium and the acceptance test. Violated, with exact description: dilute alloys and multi-order three-phase CALPHAD start from the previous evaluation; multi-order two-phase strategies pass an uninitialised array; a rebuilt level starts from zero; diagnostics at a restart start from zero; concL_ref overwrites restart data; such settings write into missing arrays unless the model is CALPHAD; the equilibrium computed before the run is overwritten before it is read unless initial diagnostics are printed; for two species it is written to the wrong entries; four-entry array too small for two species and three phases; third phase and ternary solid unchecked. The solver (external library) is an arbitrary function."
  },
  {
   "property": "C112",
   "status": "partial",
   "theorems": [
    "AMPE.Smoothing.Props.c112_frozen",
    "AMPE.Smoothing.Props.c112_frozen_3d",
    "AMPE.Smoothing.Props.c112_mean",
    "AMPE.Smoothing.Props.c112_mean_3d",
    "AMPE.Smoothing.Props.c112_between",
    "AMPE.Smoothing.Props.c112_between_3d",
    "AMPE.Smoothing.Props.c112_same_grain",
    "AMPE.Smoothing.Props.c112_roughness",
    "AMPE.Smoothing.Props.c112_roughness_passes",
    "AMPE.Smoothing.Props.c112_roughness_3d",
    "AMPE.Smoothing.Props.c112_violation_alternating",
    "AMPE.Smoothing.Props.c112_alternating_2d",
    "AMPE.Smoothing.Props.c112_violation_length",
    "AMPE.Smoothing.Props.c112_violation_length_3d",
    "AMPE.Smoothing.Props.c112_violation_frame",
    "AMPE.Smoothing.Props.c112_violation_pushes",
    "AMPE.Smoothing.Props.c112_sign_rotation",
    "AMPE.Smoothing.Props.c112_fundamental_same",
    "AMPE.Smoothing.Props.c112_fundamental_defined",
    "AMPE.Smoothing.Props.c112_fundamental_nearest",
    "AMPE.Smoothing.Props.c112_fundamental_unique",
    "AMPE.Smoothing.Props.c112_fundamental_idempotent",
    "AMPE.Smoothing.Props.c112_fundamental_reference",
    "AMPE.Smoothing.Props.c112_reset_iff",
    "AMPE.Smoothing.Props.c112_first_step",
    "AMPE.Smoothing.Props.c112_violation_restart",
    "AMPE.Smoothing.Props.c112_violation_never_counted",
    "AMPE.Smoothing.Props.c112_interval_kept",
    "AMPE.Smoothing.Props.c112_relax",
    "AMPE.Smoothing.Props.c112_violation_relax_no_interface"
   ],
   "note": "Holds for plain differences: treated cells only, no new extremes, roughness never grows (2D with an explicit decrease, 3D without), a grain described consistently is left alone; the fundamental-zone search finds the unique nearest description although it stops early, so equivalent descriptions become the same numbers; the reset decision and the relaxation loop are characterised. Violated: smoothed orientations are no rotations any more; in 3D an alternating field is not smoothed; with symmetry the right and upper neighbours act in the wrong frame (a neighbour stored as -p pushes the cell away); a restarted run, and a run without grain diagnostics, never notices a lost grain; relaxation never counts as converged without phase energy."
  },
  {
   "property": "C113",
   "status": "partial",
   "theorems": [
    "AMPE.InterfaceDiff.Props.c113_pairs",
    "AMPE.InterfaceDiff.Props.c113_own_constant",
    "AMPE.InterfaceDiff.Props.c113_bulk",
    "AMPE.InterfaceDiff.Props.c113_renaming",
    "AMPE.InterfaceDiff.Props.c113_violation_twice"
   ],
   "note": "Model of TbasedCompositionDiffusionStrategy::setDiffusionInterfaces (2D). Proved: on faces inside a patch the coefficient of a phase grows by the mean over both cells of a sum over unordered pairs of different grains with the constant of their two phases (c113_pairs, all numbers of grains, both numbering conventions); on a two-grain interface only its own constant acts (c113_own_constant), none in the bulk (c113_bulk), renaming grains changes nothing (c113_renaming). Not true: the strength; with one gradient in all phases an interface of two different phases conducts with twice the constant given, a grain boundary of one phase with once (c113_violation_twice). Faces on patch boundaries get one cell only (C61)."
  },
  {
   "property": "C114",
   "status": "partial",
   "theorems": [
    "AMPE.SmoothLevel.Props.c114_converges2",
    "AMPE.SmoothLevel.Props.c114_converges3",
    "AMPE.SmoothLevel.Props.c114_solution2",
    "AMPE.SmoothLevel.Props.c114_solution3",
    "AMPE.SmoothLevel.Props.c114_limit2",
    "AMPE.SmoothLevel.Props.c114_limit3",
    "AMPE.SmoothLevel.Props.c114_rate2",
    "AMPE.SmoothLevel.Props.c114_error_of_residual2",
    "AMPE.SmoothLevel.Props.c114_error_of_residual3",
    "AMPE.SmoothLevel.Props.c114_stop_partial",
    "AMPE.SmoothLevel.Props.c114_violation_last_patch",
    "AMPE.SmoothLevel.Props.c114_violation_stops_far_away",
    "AMPE.SmoothLevel.Props.c114_violation_never_updated"
   ],
   "note": "Proved for every level, patch arrangement and definite operator, 2D and 3D: the level's equations have exactly one solution, each sweep of the red-black loop contracts the distance to it by at least 1-kappa (kappa = smallest share of the scalar field in the diagonal, bounded below by the coefficients), so the loop converges from any start, also where the colours of neighbouring patches clash; residuals of at most tau put the values within tau/c of the solution; an early stop on a level of one patch bounds the error. Violated: the residual tested is the one of the last patch (*p_maxres = maxres), so with several patches the coarsest solve can report convergence after one sweep arbitrarily far from the solution; with negative index origins some cells are never updated."
  },
  {
   "property": "C115",
   "status": "partial",
   "theorems": [
    "AMPE.PrecondLevel.Props.c115_temperature",
    "AMPE.PrecondLevel.Props.c115_composition",
    "AMPE.PrecondLevel.Props.c115_phase_coefficient",
    "AMPE.PrecondLevel.Props.c115_phase",
    "AMPE.PrecondLevel.Props.c115_phase_small_step_partial",
    "AMPE.PrecondLevel.Props.c115_resolved",
    "AMPE.PrecondLevel.Props.c115_violation_zero_diagonal",
    "AMPE.PrecondLevel.Props.c115_violation_diverges"
   ],
   "note": "Proved in 2D: the temperature block (all step sizes), the composition block (all step sizes, all non-negative face diffusions) and the phase block wherever its scalar field 1 + gamma M omega g'' is positive have exactly one solution on a level and the red-black loop converges to it from any start; the scalar field is at least 1 - 16 gamma M omega with equality exactly at phi = 1/2, at least 1 for the single well and 1 with several order parameters; with a mesh that resolves the interface no update divides by zero. Violated for large steps: for 16 gamma M omega > 1 at phi = 1/2 the smoother moves away from the solution by a constant factor per sweep, and on meshes that do not resolve the interface there is a step size whose update divides by zero."
  },
  {
   "property": "C116",
   "status": "partial",
   "theorems": [
    "AMPE.GrainEnergy.Props.c116_gradient",
    "AMPE.GrainEnergy.Props.c116_uniform",
    "AMPE.GrainEnergy.Props.c116_second_order",
    "AMPE.GrainEnergy.Props.c116_violation_floor_force",
    "AMPE.GrainEnergy.Props.c116_violation_energy_grows",
    "AMPE.GrainEnergy.Props.c116_modulus",
    "AMPE.GrainEnergy.Props.c116_violation_thin_grain",
    "AMPE.GrainEnergy.Props.c116_reported_density",
    "AMPE.GrainEnergy.Props.c116_flux_sqrt",
    "AMPE.GrainEnergy.Props.c116_flux_max_partial",
    "AMPE.GrainEnergy.Props.c116_violation_flux_max",
    "AMPE.GrainEnergy.Props.c116_violation_flux_tanh"
   ],
   "note": "Violated. Proved for all fields (2D, one level, one order parameter, periodic, arithmetic face average): the rate of change of the reported energy along any curve of phase fields is an exact discrete force; it agrees with the force in the phase equation on uniform data and differs by a second difference of the phase otherwise; the orientation flux derives from the reported density with the sqrt floor always and with the max floor above the floor (c116_flux_max_partial). Negations: with the sqrt floor the phase force misses the floor term and the reported energy can grow along the computed rate; with the max floor below the floor, and with the tanh floor everywhere, the flux is strictly weaker than the derivative of the reported density; the default modulus from cells is zero in a one-cell-wide grain although the reported energy pulls on the phase there. Not modelled: symmetry rotations in the moduli, 3D, several levels."
  },
  {
   "property": "C117",
   "status": "partial",
   "theorems": [
    "AMPE.Options.Props.c117_interp_letters",
    "AMPE.Options.Props.c117_floor_letters",
    "AMPE.Options.Props.c117_well_known",
    "AMPE.Options.Props.c117_average_known",
    "AMPE.Options.Props.c117_interp_known",
    "AMPE.Options.Props.c117_interp_has_letter",
    "AMPE.Options.Props.c117_violation_biased",
    "AMPE.Options.Props.c117_diffusion_known_partial",
    "AMPE.Options.Props.c117_orientation_known_partial",
    "AMPE.Options.Props.c117_mobility_known",
    "AMPE.Options.Props.c117_violation_tanh_interp",
    "AMPE.Options.Props.c117_violation_unchecked",
    "AMPE.Options.Props.c117_violation_refused",
    "AMPE.Options.Props.c117_number_used",
    "AMPE.Options.Props.c117_old_number_used",
    "AMPE.Options.Props.c117_violation_smooth_floor_ignored",
    "AMPE.Options.Props.c117_violation_old_text_wins",
    "AMPE.Options.Props.c117_violation_quat_only",
    "AMPE.Options.Props.c117_violation_two_averages",
    "AMPE.Options.Props.c117_double_well",
    "AMPE.Options.Props.c117_violation_single_well",
    "AMPE.Options.Props.c117_violation_exp_default",
    "AMPE.Options.Props.c117_violation_conc_average",
    "AMPE.Options.Props.c117_violation_activation"
   ],
   "note": "Proved for all inputs: the interpolation and floor routines either know a letter everywhere or stop everywhere; accepted wells, averages, phase and composition interpolations and orientation mobilities are known to their routines; numbers under their present names are used whatever else the input contains, old names when the newer ones are absent; with a double well energy and rate use the same well. Violated: 'b' (diffusion) and 't' (orientation) are accepted and stop at the first evaluation; second interpolation, floor type and modulus type are not checked; 'h' and 'm' are refused although implemented; quat_smooth_floor and orient_smooth_floor are ignored; for texts the old name wins; the quaternion-only integrator always uses the sqrt floor and the arithmetic average; energy and flux may average differently; with phi_well_func_type = single the rate still uses the double well and the reported energy grows along it; the default scale of the exponential mobility overflows double; the average of the composition block and the activation energy q0_phi_mobility are read and never used. Not modelled: the letters of Thermo4PFM beyond linear, pbg, harmonic (library source not in the repository), third-phase options (dead code)."
  },
  {
   "property": "C118",
   "status": "partial",
   "theorems": [
    "AMPE.QuatFlow3.Props.c118_dissipates_plain",
    "AMPE.QuatFlow3.Props.c118_dissipates_angle",
    "AMPE.QuatFlow3.Props.c118_coef_sign",
    "AMPE.QuatFlow3.Props.c118_energy_nonneg",
    "AMPE.QuatFlow3.Props.c118_speed",
    "AMPE.QuatFlow3.Props.c118_isotropic_stops",
    "AMPE.QuatFlow3.Props.c118_violation_checks",
    "AMPE.QuatFlow3.Props.c118_violation_residual",
    "AMPE.QuatFlow3.Props.c118_tangent",
    "AMPE.QuatFlow3.Props.c118_violation_unrotated",
    "AMPE.QuatFlow3.Props.c118_violation_default",
    "AMPE.QuatFlow3.Props.c118_intended4",
    "AMPE.QuatFlow3.Props.c118_intended2",
    "AMPE.QuatFlow3.Props.c118_unlabelled_partial",
    "AMPE.QuatFlow3.Props.c118_violation_relabel4",
    "AMPE.QuatFlow3.Props.c118_violation_reversed"
   ],
   "note": "Holds without symmetry: on a periodic box the 3D orientation rate lowers the gradient energy with the program's own face coefficients at speed sum |rate|^2/mobility, for one angle and for any number of components above one. Violated with crystal symmetry: builds with assertions abort; without them the upper fluxes are not turned back (exact excess proved), storing a neighbour as its negative reverses the rate, the default setting adds the jump between stored and turned neighbours, the preconditioner residual and the isotropic stencil stop. Partial theorem: neighbours stored less than 45 degrees apart. One level, periodic or infinite lattice."
  },
  {
   "property": "C119",
   "status": "partial",
   "theorems": [
    "AMPE.AlloyFlow3.Props.c119_defined",
    "AMPE.AlloyFlow3.Props.c119_balance",
    "AMPE.AlloyFlow3.Props.c119_decay_partial",
    "AMPE.AlloyFlow3.Props.c119_ebs_downhill",
    "AMPE.AlloyFlow3.Props.c119_kks_linear",
    "AMPE.AlloyFlow3.Props.c119_kks_downhill_partial",
    "AMPE.AlloyFlow3.Props.c119_monotone_partial",
    "AMPE.AlloyFlow3.Props.c119_rest_partial",
    "AMPE.AlloyFlow3.Props.c119_no_cycle_partial",
    "AMPE.AlloyFlow3.Props.c119_columns_phase",
    "AMPE.AlloyFlow3.Props.c119_columns_solute",
    "AMPE.AlloyFlow3.Props.c119_columns_kks",
    "AMPE.AlloyFlow3.Props.c119_columns_energy",
    "AMPE.AlloyFlow3.Props.c119_columns_follow",
    "AMPE.AlloyFlow3.Props.c119_violation_kks",
    "AMPE.AlloyFlow3.Props.c119_columns_run"
   ],
   "note": "3D counterpart of C110 for all three directions: exact balance for any solute flux (c119_balance), no increase (c119_decay_partial, c119_monotone_partial), only rest does not dissipate (c119_rest_partial), no cycles (c119_no_cycle_partial) for the ebs form with the code's coefficients; c119_kks_downhill_partial for the kks form with linear interpolation. c119_columns_*: on samples not depending on z the 3D routines compute the 2D rates, fluxes and (times the number of layers) energy, so 2D runs are 3D runs and the counterexample to the default kks flux carries over (c119_violation_kks). Missing for the full claim: two molar volumes or two interpolations (violated in 2D, C110), the default kks flux (violated here). Periodic, isothermal, one composition, two phases, one level; time is continuous."
  },
  {
   "property": "C120",
   "status": "partial",
   "theorems": [
    "AMPE.ConservedFlow3.Props.c120_ch_conserves",
    "AMPE.ConservedFlow3.Props.c120_ch_dissipation",
    "AMPE.ConservedFlow3.Props.c120_ch_run",
    "AMPE.ConservedFlow3.Props.c120_ch_rest",
    "AMPE.ConservedFlow3.Props.c120_sinter_conserves",
    "AMPE.ConservedFlow3.Props.c120_sinter_dissipation",
    "AMPE.ConservedFlow3.Props.c120_coefficient",
    "AMPE.ConservedFlow3.Props.c120_coefficient_nonneg",
    "AMPE.ConservedFlow3.Props.c120_sinter_run",
    "AMPE.ConservedFlow3.Props.c120_sinter_rest",
    "AMPE.ConservedFlow3.Props.c120_violation_mobility",
    "AMPE.ConservedFlow3.Props.c120_columns_ch",
    "AMPE.ConservedFlow3.Props.c120_columns_sinter",
    "AMPE.ConservedFlow3.Props.c120_columns_phase",
    "AMPE.ConservedFlow3.Props.c120_columns_energy"
   ],
   "note": "Proved for the 3D routines, whatever the division into patches: total composition constant and free energy non-increasing along whole runs of the Cahn-Hilliard and of the sintering model (c120_ch_run, c120_sinter_run, the latter with the coefficients the program computes from the state, shown independent of the patch and non-negative by c120_coefficient and c120_coefficient_nonneg); the energy stands still only at rest with uniform chemical potential (c120_ch_rest, c120_sinter_rest); agreement of rates and energies with the 2D program on stacks of equal layers (c120_columns_*). Not true of the code: proportionality to the mobility of the input, which enters squared in the sintering model (c120_violation_mobility). Not modelled: coarse-fine synchronisation, time discretisation (runs are solutions of the semi-discrete system)."
  },
  {
   "property": "C121",
   "status": "partial",
   "theorems": [
    "AMPE.LevelSolve3.Props.c121_violation_boundary_mobility",
    "AMPE.LevelSolve3.Props.c121_exact_partial",
    "AMPE.LevelSolve3.Props.c121_violation_dirichlet",
    "AMPE.LevelSolve3.Props.c121_exact_const",
    "AMPE.LevelSolve3.Props.c121_positive",
    "AMPE.LevelSolve3.Props.c121_solvable",
    "AMPE.LevelSolve3.Props.c121_violation_quat_mobility",
    "AMPE.LevelSolve3.Props.c121_quat_exact_partial",
    "AMPE.LevelSolve3.Props.c121_quat_positive",
    "AMPE.LevelSolve3.Props.c121_quat_solvable",
    "AMPE.LevelSolve3.Props.c121_quat_symmetric",
    "AMPE.LevelSolve3.Props.c121_quat_zero_correction",
    "AMPE.LevelSolve3.Props.c121_columns",
    "AMPE.LevelSolve3.Props.c121_quat_columns"
   ],
   "note": "Proved for all finite 3D levels: both matrices (coarsest level of the elliptic solver, every level of the orientation solver) are positive definite and have exactly one result; the result has zero multigrid residual for constant mobility, or mobility equal across boundary faces (orientation solver: also at coarse-fine boundaries); the stored half of the stencil implies the other half; zero residual gives zero correction; on columns with z-independent data the result is the 2D result repeated along z (c121_columns, c121_quat_columns). Not true in general: c121_violation_boundary_mobility, c121_violation_quat_mobility give the exact residual left at boundary cells, c121_violation_dirichlet a family where it is not zero. hypre and the SAMRAI routines are assumed as in C78; no periodic levels, no symmetry rotations."
  },
  {
   "property": "C122",
   "status": "partial",
   "theorems": [
    "AMPE.HandOver.Props.c122_exact_partial",
    "AMPE.HandOver.Props.c122_violation_thin_3d",
    "AMPE.HandOver.Props.c122_violation_column",
    "AMPE.HandOver.Props.c122_one_cell",
    "AMPE.HandOver.Props.c122_rows_3d",
    "AMPE.HandOver.Props.c122_rows_2d",
    "AMPE.HandOver.Props.c122_levels_2d_partial",
    "AMPE.HandOver.Props.c122_violation_accepted",
    "AMPE.HandOver.Props.c122_accepted_2d_partial"
   ],
   "note": "Proved for all levels, divisions into patches, coefficients and right-hand sides: on 3D levels with more than one cell in every direction and on 2D levels with more than one column (bars of one row included) the copy loop stays in its buffer, every matrix entry and right-hand side value arrives at its cell, and the possible results are exactly the solutions of the level equations of C78/C121 (c122_exact_partial, c122_rows_2d, c122_rows_3d, c122_levels_2d_partial); a single cell is refused. Not true otherwise: c122_violation_thin_3d (3D, one cell thick in some direction: the copy loop always writes beyond its buffer), c122_violation_accepted (such samples pass the input check), c122_violation_column (2D, one column: only the first cell is solved for, without its neighbour; all other values are arbitrary). hypre's box functions and solvers are assumed as documented; periodic levels are not modelled."
  },
  {
   "property": "C123",
   "status": "partial",
   "theorems": [
    "AMPE.SolverMesh.Props.c123_start",
    "AMPE.SolverMesh.Props.c123_follows_partial",
    "AMPE.SolverMesh.Props.c123_violation_fewer_levels",
    "AMPE.SolverMesh.Props.c123_violation_steady",
    "AMPE.SolverMesh.Props.c123_repair_steady",
    "AMPE.SolverMesh.Props.c123_violation_warm",
    "AMPE.SolverMesh.Props.c123_violation_initialise_again",
    "AMPE.SolverMesh.Props.c123_violation_reset_range",
    "AMPE.SolverMesh.Props.c123_once",
    "AMPE.SolverMesh.Props.c123_release",
    "AMPE.SolverMesh.Props.c123_boundaries"
   ],
   "note": "The solvers of the preconditioner follow the mesh as long as regriddings do not lower the number of levels (c123_follows_partial). Violations proved: a regridding that lowers it makes the solver release its arrays on levels that no longer exist (c123_violation_fewer_levels, iff); SteadyStateTemperatureStrategy::resetSolversState(hierarchy) does not override the function of three arguments the integrator calls, so the solver of the steady temperature is never renewed (c123_violation_steady; c123_repair_steady shows what overriding it would give); with warm start in a build without CPODES no solver is renewed (c123_violation_warm); a second initializeSolverState is ignored and resetSolverState loses an explicit range of levels. Assumed: SAMRAI's getPatchLevel is null for a removed level and regridding replaces all finer levels."
  },
  {
   "property": "C124",
   "status": "partial",
   "theorems": [
    "AMPE.MeltFlow.Props.c124_stack_phase_partial",
    "AMPE.MeltFlow.Props.c124_stack_delta",
    "AMPE.MeltFlow.Props.c124_violation_delta",
    "AMPE.MeltFlow.Props.c124_stack_heat",
    "AMPE.MeltFlow.Props.c124_stack_run_partial",
    "AMPE.MeltFlow.Props.c124_violation_delta_run",
    "AMPE.MeltFlow.Props.c124_stack_energy",
    "AMPE.MeltFlow.Props.c124_exchange_xy",
    "AMPE.MeltFlow.Props.c124_exchange_yz",
    "AMPE.MeltFlow.Props.c124_mirror"
   ],
   "note": "Exchange of axes and reflection hold for both free energy strategies. Stacks of a 2D layer: phase rates, runs (iff), heat equation and interface energy agree with the 2D program for TemperatureFreeEnergyStrategy. Violation proved for DeltaTemperatureFreeEnergyStrategy (free_energy_type linear): the 3D routine weights the six neighbours 0.25/6 each and the 2D routine the four neighbours 0.0625 each, so a layer and its stack get different driving forces wherever the temperature is curved (c124_violation_delta, iff; c124_violation_delta_run). One level, no orientation, no composition, as in C108."
  },
  {
   "property": "C125",
   "status": "partial",
   "theorems": [
    "AMPE.Coupling3.Props.c125_addresses",
    "AMPE.Coupling3.Props.c125_addresses_distinct",
    "AMPE.Coupling3.Props.c125_beckermann_linear_partial",
    "AMPE.Coupling3.Props.c125_beckermann_zero_iff",
    "AMPE.Coupling3.Props.c125_beckermann_exchange_yz",
    "AMPE.Coupling3.Props.c125_violation_beckermann_exchange",
    "AMPE.Coupling3.Props.c125_beckermann_exchange_xz_partial",
    "AMPE.Coupling3.Props.c125_beckermann_layers",
    "AMPE.Coupling3.Props.c125_kks_two_cells",
    "AMPE.Coupling3.Props.c125_kks_liquid_cells",
    "AMPE.Coupling3.Props.c125_kks_linear",
    "AMPE.Coupling3.Props.c125_cell_addresses"
   ],
   "note": "Proved for the KKS form (one function of the two cells of a side, same for all axes, exact product rule with linear interpolation) and, with a uniform partition coefficient, for the Beckermann form; exchange of y and z and stacks of layers proved without restriction. Violated for the Beckermann form with a varying partition coefficient: y and z sides use the cell to the left (c125_violation_beckermann_exchange characterises the sides). The addresses of sides computed in C++ are proved to be those of the Fortran arrays."
  },
  {
   "property": "C126",
   "status": "partial",
   "theorems": [
    "AMPE.IntegratorNorm.Props.c126_krylov_same_norm",
    "AMPE.IntegratorNorm.Props.c126_units",
    "AMPE.IntegratorNorm.Props.c126_krylov_units",
    "AMPE.IntegratorNorm.Props.c126_covered_cells",
    "AMPE.IntegratorNorm.Props.c126_refinement",
    "AMPE.IntegratorNorm.Props.c126_error_per_field",
    "AMPE.IntegratorNorm.Props.c126_violation_single_cell",
    "AMPE.IntegratorNorm.Props.c126_violation_precond",
    "AMPE.IntegratorNorm.Props.c126_violation_precond_units",
    "AMPE.IntegratorNorm.Props.c126_precond_partial",
    "AMPE.IntegratorNorm.Props.c126_violation_precond_covered"
   ],
   "note": "Proved: the Krylov solver of the time integrator stops exactly when the residual is within the tolerance in the norm of the step test (c126_krylov_same_norm; this is what the norm factor -1 is for), both tests are independent of the unit of length (c126_units, c126_krylov_units), of the values in covered cells (c126_covered_cells) and of refinement (c126_refinement); what a passed test bounds per field (c126_error_per_field). Fails: the tolerance is not one per cell (c126_violation_single_cell, exact bound); the tolerance handed on to the block solvers is compared with a plain root mean square without control volumes and error weights (c126_violation_precond: agreement iff w*sqrt(nV)=1; c126_violation_precond_units; c126_violation_precond_covered). c126_precond_partial gives the bound that does hold."
  },
  {
   "property": "C127",
   "status": "partial",
   "theorems": [
    "AMPE.QuatRefineFill.Props.c127_fill_partial",
    "AMPE.QuatRefineFill.Props.c127_violation_gap",
    "AMPE.QuatRefineFill.Props.c127_violation",
    "AMPE.QuatRefineFill.Props.c127_violation_thin",
    "AMPE.QuatRefineFill.Props.c127_violation_outcome_2d",
    "AMPE.QuatRefineFill.Props.c127_stencil_2d"
   ],
   "note": "The code violates the property: every box of the overlap is shortened by one cell at its upper end in every direction (a leftover of a node-centred operator), so for every request some requested cell keeps its old content (c127_violation_gap, c127_violation), and layers one cell thick are not filled at all (c127_violation_thin). With the rotation index the program passes, the operator either fills nothing or stops (c127_violation_outcome_2d). What is filled is characterised exactly (c127_fill_partial), the stencil width is adequate (c127_stencil_2d)."
  },
  {
   "property": "C128",
   "status": "partial",
   "theorems": [
    "AMPE.HistoryField.Props.c128_file_node",
    "AMPE.HistoryField.Props.c128_violation_last_column",
    "AMPE.HistoryField.Props.c128_last_time",
    "AMPE.HistoryField.Props.c128_violation_increasing",
    "AMPE.HistoryField.Props.c128_comments",
    "AMPE.HistoryField.Props.c128_violation_blank_line",
    "AMPE.HistoryField.Props.c128_centre",
    "AMPE.HistoryField.Props.c128_continuous",
    "AMPE.HistoryField.Props.c128_laboratory",
    "AMPE.HistoryField.Props.c128_patch",
    "AMPE.HistoryField.Props.c128_violation_restart",
    "AMPE.HistoryField.Props.c128_average"
   ],
   "note": "A complete file is read and its nodes are reproduced (c128_file_node), the field has the temperature and gradient of the history at the laboratory position of the centre (c128_centre), equals the history at every laboratory position when that is linear in position (c128_laboratory), does not jump when the velocity is changed and does not depend on the patch. The code violates the rest: the position of the last column gives an out-of-bounds read, positions in increasing order are accepted but no lookup succeeds, a blank line ends the program, and a restart forgets the frame. The reported average is the cell mean only on a mesh without refinement (c128_average). Parsing of single numbers by std::stod is a parameter."
  },
  {
   "property": "C129",
   "status": "proved",
   "theorems": [
    "AMPE.AlloyPlacement.Props.c129_phase",
    "AMPE.AlloyPlacement.Props.c129_coeffs",
    "AMPE.AlloyPlacement.Props.c129_ebs",
    "AMPE.AlloyPlacement.Props.c129_kks",
    "AMPE.AlloyPlacement.Props.c129_solute",
    "AMPE.AlloyPlacement.Props.c129_energy",
    "AMPE.AlloyPlacement.Props.c129_run",
    "AMPE.AlloyPlacement.Props.c129_placements"
   ],
   "note": "For the three-dimensional isothermal binary alloy with one order parameter, the regular stencil and no moving frame (the routines of C119): for each of the 48 orders and orientations of the axes and every position of the first cell (there is exactly one such placement, c129_placements) the phase rate, the coefficients of the sides, both forms of the solute flux, the composition rate and the energy of a period are those of the sample, and a run is carried to a run. Double rounding is not modelled; sums are in the reals."
  },
  {
   "property": "C130",
   "status": "partial",
   "theorems": [
    "AMPE.InitMesh.Props.c130_base_level",
    "AMPE.InitMesh.Props.c130_one_level_partial",
    "AMPE.InitMesh.Props.c130_violation_mesh",
    "AMPE.InitMesh.Props.c130_violation_fine",
    "AMPE.InitMesh.Props.c130_violation_level",
    "AMPE.InitMesh.Props.c130_written_iff",
    "AMPE.InitMesh.Props.c130_written_covered",
    "AMPE.InitMesh.Props.c130_written_bounds",
    "AMPE.InitMesh.Props.c130_written_exact",
    "AMPE.InitMesh.Props.c130_written_linear_2d",
    "AMPE.InitMesh.Props.c130_written_linear_3d",
    "AMPE.InitMesh.Props.c130_violation_zero",
    "AMPE.InitMesh.Props.c130_violation_amount",
    "AMPE.InitMesh.Props.c130_violation_length"
   ],
   "note": "The code violates the property for refined meshes: the hierarchy is built, tags and all, before the initial-conditions file is read, and only level 0 is filled from the file. c130_violation_mesh/fine/zero characterise the result; with amr_level_of_data > 0 the run never starts (c130_violation_level). Proved as it should be: a start without finer levels (c130_one_level_partial), level 0, and the write side (exact on covered cells, range, affine fields). Writing a level that is not fully refined changes amounts and shortens orientations (c130_violation_amount, c130_violation_length)."
  },
  {
   "property": "C131",
   "status": "partial",
   "theorems": [
    "AMPE.PhaseBounds.Props.c131_between_2d_partial",
    "AMPE.PhaseBounds.Props.c131_between_3d_partial",
    "AMPE.PhaseBounds.Props.c131_heat_2d",
    "AMPE.PhaseBounds.Props.c131_heat_3d",
    "AMPE.PhaseBounds.Props.c131_violation_linear",
    "AMPE.PhaseBounds.Props.c131_violation_orient_linear",
    "AMPE.PhaseBounds.Props.c131_violation_frame",
    "AMPE.PhaseBounds.Props.c131_violation_upwind",
    "AMPE.PhaseBounds.Props.c131_violation_aspect",
    "AMPE.PhaseBounds.Props.c131_melting_sign"
   ],
   "note": "Code fails the claim: with the linear interpolation of the energies a stable melt gets a negative phase (the guard `phi > 0 or phi < 1` is always true), the linear interpolation of the orientation term does the same at grain boundaries without solid, a moving frame overshoots when v dx > 2 M eps^2 or, with third order upwind differences, at any speed, and the isotropic stencil does on cells of aspect ratio above sqrt 5. Proved for all other settings and every driving force: the semi-discrete equations keep the phase in [0,1] in 2D and 3D; the heat equation without phase change keeps the initial temperature range. Not covered: noise, anisotropic interface energy, several order parameters, the time discretisation."
  },
  {
   "property": "C132",
   "status": "partial",
   "theorems": [
    "AMPE.ThreeBounds.Props.c132_fractions_2d_partial",
    "AMPE.ThreeBounds.Props.c132_absent_2d_partial",
    "AMPE.ThreeBounds.Props.c132_fractions_3d_partial",
    "AMPE.ThreeBounds.Props.c132_absent_3d_partial",
    "AMPE.ThreeBounds.Props.c132_exchange",
    "AMPE.ThreeBounds.Props.c132_moelans",
    "AMPE.ThreeBounds.Props.c132_violation_upwind"
   ],
   "note": "Proved for 2D and 3D and every history of energies, compositions and mobility: three phases that start as fractions stay fractions and a phase absent at the start never appears; between fractions the chemical force is a sum of pairwise exchanges that vanish with either phase. Code fails the claim with the upwind moving frame (violation proved); hypotheses on the frame speed and on the aspect ratio of the isotropic stencil are those of C131. The Moelans tilting functions, which no input selects, would let a third phase appear (c132_moelans). Not covered: noise, the time discretisation and the projection after each step (C34, C107)."
  },
  {
   "property": "C133",
   "status": "partial",
   "theorems": [
    "AMPE.MultiBounds.Props.c133_nonneg_2d_partial",
    "AMPE.MultiBounds.Props.c133_nonneg_3d_partial",
    "AMPE.MultiBounds.Props.c133_below_one_2d_partial",
    "AMPE.MultiBounds.Props.c133_below_one_3d_partial",
    "AMPE.MultiBounds.Props.c133_sinter_2d_partial",
    "AMPE.MultiBounds.Props.c133_sinter_3d_partial",
    "AMPE.MultiBounds.Props.c133_violation_above",
    "AMPE.MultiBounds.Props.c133_violation_upwind"
   ],
   "note": "Grain models and sintering, 2D and 3D, any number of order parameters, any energies/mobility/frame in time: order parameters never become negative, and a grain absent at the start never appears (forces and wells have the order parameter as a factor; division by the sum of squares bounded away from zero by compactness from the code's own assert sum2 > 0). They stay below one if the energies of the phases differ by at most gamma m. Violations: driving force above gamma m (1+w^2)^2 pushes a grain beyond one; the upwind moving frame makes order parameters negative. Not modelled: rigid body motion, noise."
  },
  {
   "property": "C134",
   "status": "partial",
   "theorems": [
    "AMPE.SoluteBounds.Props.c134_nonneg_2d_partial",
    "AMPE.SoluteBounds.Props.c134_nonneg_3d_partial",
    "AMPE.SoluteBounds.Props.c134_range_2d_partial",
    "AMPE.SoluteBounds.Props.c134_kks_2d_partial",
    "AMPE.SoluteBounds.Props.c134_kks_3d_partial",
    "AMPE.SoluteBounds.Props.c134_split",
    "AMPE.SoluteBounds.Props.c134_violation_order4",
    "AMPE.SoluteBounds.Props.c134_violation_isotropic",
    "AMPE.SoluteBounds.Props.c134_violation_antitrap",
    "AMPE.SoluteBounds.Props.c134_violation_antitrap_y",
    "AMPE.SoluteBounds.Props.c134_violation_cross",
    "AMPE.SoluteBounds.Props.c134_violation_frame",
    "AMPE.SoluteBounds.Props.c134_violation_upper",
    "AMPE.SoluteBounds.Props.c134_violation_kks_linear"
   ],
   "note": "Proved for all solutions: with the regular stencil of the sum over the phases (2D, 3D), diagonal diffusion, no anti-trapping and phase compositions that are non-negative multiples of the composition, the composition never becomes negative; it stays within the bounds of its initial and boundary values if both phases have the composition of the cell; in phase-gradient (KKS) form, with arithmetic or harmonic averages, partitioned solute never becomes negative if energies and compositions are interpolated alike or the compositions linearly. Violations proved: fourth-order stencil, isotropic stencil with contrast of diffusion, anti-trapping current, cross diffusion, frame faster than diffusion (exact threshold), upper bound one, KKS form with linear energies and nonlinear compositions. Not covered: thermal diffusion, rigid body motion, fourth-order (Cahn-Hilliard) models, nonlinear phase compositions (CALPHAD)."
  },
  {
   "property": "C135",
   "status": "partial",
   "theorems": [
    "AMPE.TempReport.Props.c135_prescribed",
    "AMPE.TempReport.Props.c135_prescribed_fixed",
    "AMPE.TempReport.Props.c135_uniform_fixed",
    "AMPE.TempReport.Props.c135_file",
    "AMPE.TempReport.Props.c135_shown_is_used_partial",
    "AMPE.TempReport.Props.c135_unsteady_trials",
    "AMPE.TempReport.Props.c135_printed_uniform",
    "AMPE.TempReport.Props.c135_printed",
    "AMPE.TempReport.Props.c135_printed_gradient",
    "AMPE.TempReport.Props.c135_violation_gradient_mean",
    "AMPE.TempReport.Props.c135_violation_steady",
    "AMPE.TempReport.Props.c135_steady_used",
    "AMPE.TempReport.Props.c135_violation_steady_printed"
   ],
   "note": "Proved for uniform, Gaussian, frozen-gradient, file and unsteady temperatures: after an accepted step the temperature shown is the one the rates used, whatever the solver tried and however many diagnostics were made; the printed numbers are those of the field (gradient average: one level). Fails: the steady heat equation writes only the scratch copy, so plots, restart files, energies and printed temperatures (and the heat capacity it uses) stay those of the start for the whole run (c135_violation_steady, c135_steady_used, c135_violation_steady_printed); the printed average of a frozen gradient is half the sum of the extremes, not the mean, on a refined mesh (c135_violation_gradient_mean)."
  },
  {
   "property": "C136",
   "status": "partial",
   "theorems": [
    "AMPE.HeatOrder.Props.c136_order_2d_partial",
    "AMPE.HeatOrder.Props.c136_order_3d_partial",
    "AMPE.HeatOrder.Props.c136_unique_2d_partial",
    "AMPE.HeatOrder.Props.c136_floor_2d_partial",
    "AMPE.HeatOrder.Props.c136_ceiling_2d_partial",
    "AMPE.HeatOrder.Props.c136_violation_frame",
    "AMPE.HeatOrder.Props.c136_violation_upwind",
    "AMPE.HeatOrder.Props.c136_steady_order",
    "AMPE.HeatOrder.Props.c136_steady_unique",
    "AMPE.HeatOrder.Props.c136_steady_exists",
    "AMPE.HeatOrder.Props.c136_closed_balance",
    "AMPE.HeatOrder.Props.c136_violation_closed",
    "AMPE.HeatOrder.Props.c136_violation_level"
   ],
   "note": "In time (2D, 3D): ordering, uniqueness, floor and ceiling proved for the fixed frame and for a centred moving frame with v dx <= 2 D; violations: a faster centred frame and the third order upwind formula (at any speed) cool a place below every temperature there is. Steady (2D, one level, Robin condition on each side): ordering, uniqueness and existence for every source when the temperature enters the condition on some side; violations: with slopes on every side a solution exists only if the source is balanced, and then it is not unique; the code neither checks this nor looks at the result of the solve."
  },
  {
   "property": "C137",
   "status": "partial",
   "theorems": [
    "AMPE.Observe.Props.c137_rate",
    "AMPE.Observe.Props.c137_run_partial",
    "AMPE.Observe.Props.c137_results_partial",
    "AMPE.Observe.Props.c137_setup_first",
    "AMPE.Observe.Props.c137_violation_constant",
    "AMPE.Observe.Props.c137_guess_exact",
    "AMPE.Observe.Props.c137_violation_guess",
    "AMPE.Observe.Props.c137_violation_guess_current",
    "AMPE.Observe.Props.c137_violation_stop",
    "AMPE.Observe.Props.c137_violation_file"
   ],
   "note": "Proved for every configuration of the rates (noise, velocity-dependent partition coefficients, lagged coefficients) and for every time integrator that decides from the rates and coefficients it is given: printing diagnostics any number of times changes no result (c137_rate, c137_run_partial, c137_results_partial), with the phase compositions a function of the local state and, for a temperature nothing sets, ghost cells that do not depend on time (c137_violation_constant otherwise). Violated through the starting point of the solver for the phase compositions: exact conditions c137_violation_guess, c137_violation_guess_current; diagnostics can end a run the integrator would have continued (c137_violation_stop); naming a free-energy file changes the first step (c137_violation_file)."
  },
  {
   "property": "C138",
   "status": "partial",
   "theorems": [
    "AMPE.MobilityFile.Props.c138_read_partial",
    "AMPE.MobilityFile.Props.c138_count",
    "AMPE.MobilityFile.Props.c138_violation_fourth",
    "AMPE.MobilityFile.Props.c138_violation_gap",
    "AMPE.MobilityFile.Props.c138_violation_three",
    "AMPE.MobilityFile.Props.c138_violation_ternary",
    "AMPE.MobilityFile.Props.c138_temperatures",
    "AMPE.MobilityFile.Props.c138_entry",
    "AMPE.MobilityFile.Props.c138_table_partial",
    "AMPE.MobilityFile.Props.c138_violation_liquid"
   ],
   "note": "Reading proved for files with two or three species and arrays of two or four entries (c138_read_partial); table proved for three of its four blocks (c138_table_partial, c138_entry, c138_temperatures). Violated: the block for species 1 in the liquid shows species 0 (c138_violation_liquid, exact condition); a fourth species overwrites the first (c138_violation_fourth); a gap in the species ends in an index out of range (c138_violation_gap); three entries read memory that was not set (c138_violation_three); higher interaction terms have no effect with three species (c138_violation_ternary)."
  },
  {
   "property": "C139",
   "status": "partial",
   "theorems": [
    "AMPE.GrainFlow.Props.c139_balance",
    "AMPE.GrainFlow.Props.c139_monotone_partial",
    "AMPE.GrainFlow.Props.c139_rest_partial",
    "AMPE.GrainFlow.Props.c139_no_cycle_partial",
    "AMPE.GrainFlow.Props.c139_balance_3d",
    "AMPE.GrainFlow.Props.c139_monotone_3d_partial",
    "AMPE.GrainFlow.Props.c139_violation_reported",
    "AMPE.GrainFlow.Props.c139_violation_grows",
    "AMPE.GrainFlow.Props.c139_violation_documented_rate",
    "AMPE.GrainFlow.Props.c139_violation_documented"
   ],
   "note": "Proved for any number of order parameters, either stencil in 2D and 3D, given bulk energies: an energy exists (slopes, implemented wells, bulk energies weighted with squares) whose rate of change is exactly minus the mobility times the squared forces, so it never grows, is stationary only at rest and cannot return. The energy the program prints is not this one: it sees the first order parameter only and grows while that grain forms (violation proved); with the documented wells (Moelans) the energy of two equal grains grows too (violation proved)."
  },
  {
   "property": "C140",
   "status": "proved",
   "theorems": [
    "AMPE.Convergence.Props.c140_phase_2d",
    "AMPE.Convergence.Props.c140_second_order",
    "AMPE.Convergence.Props.c140_heat_2d",
    "AMPE.Convergence.Props.c140_phase_3d",
    "AMPE.Convergence.Props.c140_heat_3d"
   ],
   "note": "Second-order convergence in the maximum norm of the computed phase (one order parameter, both 2D stencils, 3D) and temperature (2D, 3D) to a smooth periodic solution of the field equation. Space only: the histories satisfy the differential equations in time exactly (the step of CVODE is not part of it). Phase and temperature are taken one at a time, the other fields being given functions; frame fixed or moving with centred differences under the cell Peclet condition of C131."
  },
  {
   "property": "C141",
   "status": "partial",
   "theorems": [
    "AMPE.Drivers.Props.c141_binary_table_partial",
    "AMPE.Drivers.Props.c141_rows_equilibria",
    "AMPE.Drivers.Props.c141_violation_repeated_composition",
    "AMPE.Drivers.Props.c141_violation_range",
    "AMPE.Drivers.Props.c141_ternary_table",
    "AMPE.Drivers.Props.c141_violation_ternary_unphysical",
    "AMPE.Drivers.Props.c141_equilibrium_report",
    "AMPE.Drivers.Props.c141_violation_solid_curvature",
    "AMPE.Drivers.Props.c141_zeta_of_run",
    "AMPE.Drivers.Props.c141_violation_zeta_of_failure"
   ],
   "note": "Proved for every equilibrium solver and range of temperatures: when the binary table is written, which points are in it, that all are equilibria within the range, the ternary tables, what the equilibrium report shows, and that the printed zeta is the one a run uses. The full property fails, proved as violations: a composition met at two temperatures is listed once (a pure solid gets one line); one failure loses the whole table, the top of the range is never tabulated, the block NewtonSolver is required; the ternary program does not check the solid; the solid's second derivative is evaluated at the liquid composition; zeta 0 with exit status 0 when no equilibrium was found. Not modelled: the solver itself (Thermo4PFM), formatting of the output, the dilute branch of the zeta program."
  },
  {
   "property": "C142",
   "status": "partial",
   "theorems": [
    "AMPE.Nuclei.Props.c142_distance",
    "AMPE.Nuclei.Props.c142_violation_periodic",
    "AMPE.Nuclei.Props.c142_phase_sharp",
    "AMPE.Nuclei.Props.c142_violation_disc",
    "AMPE.Nuclei.Props.c142_apart",
    "AMPE.Nuclei.Props.c142_solid_volume_partial",
    "AMPE.Nuclei.Props.c142_violation_overlap",
    "AMPE.Nuclei.Props.c142_nominal_partial",
    "AMPE.Nuclei.Props.c142_violation_nominal",
    "AMPE.Nuclei.Props.c142_violation_negative",
    "AMPE.Nuclei.Props.c142_violation_options",
    "AMPE.Nuclei.Props.c142_separated",
    "AMPE.Nuclei.Props.c142_violation_never_ends",
    "AMPE.Nuclei.Props.c142_push",
    "AMPE.Nuclei.Props.c142_nearest_partial",
    "AMPE.Nuclei.Props.c142_violation_two_nuclei",
    "AMPE.Nuclei.Props.c142_violation_quat_out",
    "AMPE.Nuclei.Props.c142_unit",
    "AMPE.Nuclei.Props.c142_violation_angle"
   ],
   "note": "Proved for all numbers and positions of nuclei, radii, widths and compositions: the pruned distance function is the minimum over the images, the sharp phase field, separation at the end of imposeMinDistance, no overlap, nominal composition and nearest orientation under that separation, unit random orientations. The full property fails, proved as violations: --periodic has no effect, the disc radius in 2D, double counting where nuclei overlap and the resulting error of the mean composition, negative compositions, options that stop the script or are ignored, species merged, no end for distances above 1000, wrong grain for two nuclei, --quat-out drops all grains but the first, crystal symmetry of an angle not applied. Not modelled: eta and temperature fields, single precision, the random choice of centres, symmetry rotations."
  },
  {
   "property": "C143",
   "status": "proved",
   "theorems": [
    "AMPE.Dependence.Props.c143_phase_2d",
    "AMPE.Dependence.Props.c143_unique_2d",
    "AMPE.Dependence.Props.c143_phase_3d",
    "AMPE.Dependence.Props.c143_unique_3d",
    "AMPE.Dependence.Props.c143_heat_2d",
    "AMPE.Dependence.Props.c143_heat_3d",
    "AMPE.Dependence.Props.c143_grains_2d"
   ],
   "note": "Exact solution in time of the semi-discrete equations (the time integrator is outside the model); phase with the interpolations p and h, given energies of the phases, no orientation term, fixed frame or centred frame term within the cell Peclet condition; grains (2D) without driving force; sides periodic or without flux."
  },
  {
   "property": "C144",
   "status": "partial",
   "theorems": [
    "AMPE.Bilayer.Props.c144_phase_range",
    "AMPE.Bilayer.Props.c144_one_layer",
    "AMPE.Bilayer.Props.c144_two_layers_partial",
    "AMPE.Bilayer.Props.c144_violation_two_across_z",
    "AMPE.Bilayer.Props.c144_violation_cut",
    "AMPE.Bilayer.Props.c144_composition",
    "AMPE.Bilayer.Props.c144_nominal_partial",
    "AMPE.Bilayer.Props.c144_violation_odd",
    "AMPE.Bilayer.Props.c144_violation_default_radius",
    "AMPE.Bilayer.Props.c144_two_nominal_partial",
    "AMPE.Bilayer.Props.c144_violation_nominal_alone",
    "AMPE.Bilayer.Props.c144_violation_outside",
    "AMPE.Bilayer.Props.c144_violation_orientation_outside",
    "AMPE.Bilayer.Props.c144_angle",
    "AMPE.Bilayer.Props.c144_angle_between",
    "AMPE.Bilayer.Props.c144_orientation_sharp",
    "AMPE.Bilayer.Props.c144_violation_length",
    "AMPE.Bilayer.Props.c144_gradient",
    "AMPE.Bilayer.Props.c144_violation_gauss"
   ],
   "note": "For utils/make_bilayer.py: the phase is always between the two values asked for; one sharp layer consists exactly of the cells at most the radius from its middle; the exact total composition is given for one or two layers of any place and size; the mean composition is the nominal one for one centred layer in an even number of cells and for two equal layers in a multiple of four cells; an angle given for two layers is the misorientation; a temperature gradient keeps the mean. Proved to fail in the code: the mean composition with an odd number of cells, with the default radius in 4q+2 cells and with --ratio; a nominal composition alone writes zero everywhere; a nominal composition with --concentration-out stops the script and --concentration-out alone is ignored; --quat-out is not used for one layer; two layers across z coincide; the interface of the second layer is cut off; orientations between the layers are not of length one; the gaussian decays with the distance instead of its square."
  },
  {
   "property": "C145",
   "status": "partial",
   "theorems": [
    "AMPE.PyQuat.Props.c145_table",
    "AMPE.PyQuat.Props.c145_conjugate_partial",
    "AMPE.PyQuat.Props.c145_violation_conjugate",
    "AMPE.PyQuat.Props.c145_violation_index",
    "AMPE.PyQuat.Props.c145_search4_partial",
    "AMPE.PyQuat.Props.c145_nearest4",
    "AMPE.PyQuat.Props.c145_fundamental",
    "AMPE.PyQuat.Props.c145_nearest2",
    "AMPE.PyQuat.Props.c145_violation_angle",
    "AMPE.PyQuat.Props.c145_angle",
    "AMPE.PyQuat.Props.c145_angle2"
   ],
   "note": "For utils/quat.py: tables, products, lengths and searches equal those of source/fortran/quat.f for orientations that are not numerically zero; whatever the start index, a result is an equivalent orientation with no closer one, at most 62.8 degrees away; quatMakeFundamental always gives a unit orientation turned by at most that; the angles computed from distances are the rotation angles. Proved to fail in the code: the conjugate of rotation 40 is wrong, a start index of plus or minus the number of rotations stops the script, and quatSymm1 returns nothing when its first candidate is near enough. multiplyQuat without a third argument and conjugateQuat raise exceptions for all arguments and are only described."
  },
  {
   "property": "C146",
   "status": "proved",
   "theorems": [
    "AMPE.MeltExist.Props.c146_exists_2d",
    "AMPE.MeltExist.Props.c146_unique_2d",
    "AMPE.MeltExist.Props.c146_exists_3d",
    "AMPE.MeltExist.Props.c146_unique_3d"
   ],
   "note": "Semi-discrete equations of a pure melt (phase and heat equation), both thermal driving forces, interpolations 'p' and 'h', plain and isotropic stencils in 2D, moving frame with centred convection below one cell Peclet number; mobility, heat capacity and frame speed constant in time as the statement says. Other couplings (solute, orientation, grains) are outside the statement."
  },
  {
   "property": "C147",
   "status": "partial",
   "theorems": [
    "AMPE.CommandLine.Props.c147_names_partial",
    "AMPE.CommandLine.Props.c147_names_given",
    "AMPE.CommandLine.Props.c147_violation_root",
    "AMPE.CommandLine.Props.c147_violation_shared",
    "AMPE.CommandLine.Props.c147_fresh",
    "AMPE.CommandLine.Props.c147_restart_partial",
    "AMPE.CommandLine.Props.c147_blanks",
    "AMPE.CommandLine.Props.c147_violation_negative",
    "AMPE.CommandLine.Props.c147_violation_text",
    "AMPE.CommandLine.Props.c147_violation_usage",
    "AMPE.CommandLine.Props.c147_model"
   ],
   "note": "Proved for input files outside the root directory and numerals of natural numbers as restart number. The code violates the rest: an input in the root directory puts the slash in the name of the run; input files with the same stem share all output; a negative restart number silently starts afresh and text restarts from dump 0; after the text of usage an unset pointer is deleted."
  },
  {
   "property": "C148",
   "status": "partial",
   "theorems": [
    "AMPE.BoundaryGrains.Props.c148_phase_range",
    "AMPE.BoundaryGrains.Props.c148_front",
    "AMPE.BoundaryGrains.Props.c148_fraction_partial",
    "AMPE.BoundaryGrains.Props.c148_violation_fraction",
    "AMPE.BoundaryGrains.Props.c148_mean",
    "AMPE.BoundaryGrains.Props.c148_mean_partial",
    "AMPE.BoundaryGrains.Props.c148_violation_mean",
    "AMPE.BoundaryGrains.Props.c148_violation_liquid",
    "AMPE.BoundaryGrains.Props.c148_liquid",
    "AMPE.BoundaryGrains.Props.c148_grain",
    "AMPE.BoundaryGrains.Props.c148_grain_partial",
    "AMPE.BoundaryGrains.Props.c148_violation_border",
    "AMPE.BoundaryGrains.Props.c148_violation_plane",
    "AMPE.BoundaryGrains.Props.c148_smooth_range",
    "AMPE.BoundaryGrains.Props.c148_smooth_partial",
    "AMPE.BoundaryGrains.Props.c148_violation_smooth",
    "AMPE.BoundaryGrains.Props.c148_smooth_wraps",
    "AMPE.BoundaryGrains.Props.c148_smooth_wraps_z",
    "AMPE.BoundaryGrains.Props.c148_smooth_flat"
   ],
   "note": "Code violates the property: with two grains or more the solid always fills less than the fraction asked for (c148_violation_fraction) and the mean composition is never the nominal one unless the solid has it (c148_violation_mean, exact error in c148_mean); a plane of cells on the border of two slabs gets grain 0 (c148_violation_border); with --plane 0 the slabs are shifted by half the difference of the two axes (c148_grain, c148_violation_plane); without periodicity the last interior plane is smoothed with the opposite side of the domain (c148_violation_smooth); --concentration-out has no effect with a nominal composition (c148_violation_liquid). Proved where it holds: c148_phase_range, c148_front, c148_fraction_partial, c148_mean_partial, c148_liquid, c148_grain_partial, c148_smooth_range, c148_smooth_partial, c148_smooth_wraps. Not modelled: the draw of noise and orientations (arguments), single precision."
  },
  {
   "property": "C149",
   "status": "partial",
   "theorems": [
    "AMPE.MultiSpheres.Props.c149_distance",
    "AMPE.MultiSpheres.Props.c149_violation_periodic",
    "AMPE.MultiSpheres.Props.c149_axis_distance",
    "AMPE.MultiSpheres.Props.c149_filled",
    "AMPE.MultiSpheres.Props.c149_sphere_partial",
    "AMPE.MultiSpheres.Props.c149_violation_flat",
    "AMPE.MultiSpheres.Props.c149_phase_range",
    "AMPE.MultiSpheres.Props.c149_profile",
    "AMPE.MultiSpheres.Props.c149_sum",
    "AMPE.MultiSpheres.Props.c149_liquid",
    "AMPE.MultiSpheres.Props.c149_composition",
    "AMPE.MultiSpheres.Props.c149_violation_b",
    "AMPE.MultiSpheres.Props.c149_violation_species",
    "AMPE.MultiSpheres.Props.c149_species_le"
   ],
   "note": "Code violates the property: no text of --periodic makes an axis periodic, because the pieces of the text are compared with the number 1 (c149_violation_periodic); in a domain with one plane a disc is drawn with the square of its radius lowered by 1/4 (c149_violation_flat); a sphere whose phase is not A stops the script without --concentration-B (c149_violation_b); the number of species is right exactly when no two values of phase A are equal (c149_violation_species). Proved: the distance is the one to the nearest image for any ranges (c149_distance), phase and composition of each cell without images (c149_sphere_partial, c149_filled, c149_liquid, c149_composition), range, smooth profile up to its value at five widths (c149_profile), sum of the phases (c149_sum). Not modelled: single precision, syntax of the csv file."
  },
  {
   "property": "C150",
   "status": "partial",
   "theorems": [
    "AMPE.Sphere.Props.c150_one",
    "AMPE.Sphere.Props.c150_writes_partial",
    "AMPE.Sphere.Props.c150_symmetric",
    "AMPE.Sphere.Props.c150_violation_shift",
    "AMPE.Sphere.Props.c150_violation_two",
    "AMPE.Sphere.Props.c150_violation_emptied",
    "AMPE.Sphere.Props.c150_violation_quat",
    "AMPE.Sphere.Props.c150_angle4",
    "AMPE.Sphere.Props.c150_angle1",
    "AMPE.Sphere.Props.c150_violation_half",
    "AMPE.Sphere.Props.c150_violation_sign",
    "AMPE.Sphere.Props.c150_random",
    "AMPE.Sphere.Props.c150_random_radius",
    "AMPE.Sphere.Props.c150_violation_random",
    "AMPE.Sphere.Props.c150_size",
    "AMPE.Sphere.Props.c150_angles_one",
    "AMPE.Sphere.Props.c150_angle_used",
    "AMPE.Sphere.Props.c150_round_half"
   ],
   "note": "Code violates the property: with --two no file is ever written and the old file is emptied (c150_violation_two, c150_violation_emptied); with --quat-in, --quat-in-two or --quat-out no file is written (c150_violation_quat, Python 3); random spheres with the default qlen 4 fail (c150_violation_random); --cx/--cy/--cz are the centre and not the announced shift (c150_violation_shift); for qlen 2 the rotation is half the angle asked for (c150_violation_half); the sign of the angle is lost for qlen 4 and 2 (c150_violation_sign). Proved: cells of the one sphere (c150_one, c150_writes_partial, c150_symmetric), angle for qlen 4 and 1 (c150_angle4, c150_angle1), random spheres inside the domain for every draw (c150_random, c150_random_radius). Not modelled: rotations by symmetry operations."
  },
  {
   "property": "C151",
   "status": "partial",
   "theorems": [
    "AMPE.MeltRest.Props.c151_rest_partial",
    "AMPE.MeltRest.Props.c151_temperature_partial",
    "AMPE.MeltRest.Props.c151_limit_partial",
    "AMPE.MeltRest.Props.c151_isothermal",
    "AMPE.MeltRest.Props.c151_rest3_partial",
    "AMPE.MeltRest.Props.c151_limit3_partial",
    "AMPE.MeltRest.Props.c151_isothermal3"
   ],
   "note": "Proved for closed 2D and 3D samples (the value of the final temperature in 2D): with the heat equation and the linear interpolation (both driving forces) every rate tends to zero, the temperature becomes uniform and approaches the value the heat balance gives, and every limit along a sequence of times is a state at rest (such sequences exist); with given energies of the phases and the interpolations p and h every rate tends to zero. Mobilities may vary between two positive bounds. Missing: the other interpolations together with the heat equation, for which the sum that proves it may grow (c108_violation_interpolation)."
  },
  {
   "property": "C152",
   "status": "partial",
   "theorems": [
    "AMPE.GrainRest.Props.c152_rest_partial",
    "AMPE.GrainRest.Props.c152_growth",
    "AMPE.GrainRest.Props.c152_rest3_partial",
    "AMPE.GrainRest.Props.c152_growth3"
   ],
   "note": "Grain growth (no driving force) is covered in full for closed samples in 2D (both stencils) and 3D: rates of all order parameters tend to zero, limits along any sequence of times are states in which nothing moves. With driving forces (two or three phases, given energies) the rates tend to zero as long as the order parameters of no cell all approach zero. Hypotheses: gamma >= 0, m > 0, mobility between two positive bounds, periodic sample, exact solution of the differential equations. Missing: driving force where all order parameters approach zero, physical boundaries with driving force (without it: C155), moving frame."
  },
  {
   "property": "C153",
   "status": "proved",
   "theorems": [
    "AMPE.GrainExist.Props.c153_exists",
    "AMPE.GrainExist.Props.c153_unique",
    "AMPE.GrainExist.Props.c153_rests",
    "AMPE.GrainExist.Props.c153_exists3",
    "AMPE.GrainExist.Props.c153_unique3",
    "AMPE.GrainExist.Props.c153_rests3"
   ],
   "note": "For every start state of a periodic sample there is a history for all times and only one, in 2D with both stencils and in 3D, with mobilities fixed in time and zero or more; with positive mobilities it comes to rest. The bound needed for existence comes from the energy (C139), so no condition on the mesh is needed. gamma >= 0 and m > 0 are what the code computes from its input. Exact integration in time; without driving force."
  },
  {
   "property": "C154",
   "status": "partial",
   "theorems": [
    "AMPE.Corners.Props.c154_phase",
    "AMPE.Corners.Props.c154_solid_filled",
    "AMPE.Corners.Props.c154_quarters_partial",
    "AMPE.Corners.Props.c154_violation_left",
    "AMPE.Corners.Props.c154_violation_border",
    "AMPE.Corners.Props.c154_violation_flat",
    "AMPE.Corners.Props.c154_violation_length",
    "AMPE.Corners.Props.c154_violation_deep",
    "AMPE.Corners.Props.c154_runs"
   ],
   "note": "Violated by the script and the violations are proved for all sizes: the two grains on the left have one orientation, the border between lower and upper grains is at half the width (not height), fewer than four components give lengths other than 1, deep cells get zero orientation. Proved: which cells are solid, every solid cell has a grain, in square domains every cell gets the grain of its quarter, and the script finishes exactly for at most four components."
  },
  {
   "property": "C155",
   "status": "proved",
   "theorems": [
    "AMPE.GrainWalls.Props.c155_exists",
    "AMPE.GrainWalls.Props.c155_unique",
    "AMPE.GrainWalls.Props.c155_rests",
    "AMPE.GrainWalls.Props.c155_exists3",
    "AMPE.GrainWalls.Props.c155_unique3",
    "AMPE.GrainWalls.Props.c155_rests3"
   ],
   "note": "2D with both stencils and 3D; grain growth without driving force in the fixed frame, box of any size on one patch, mobility any field of the cells of the box, physical boundaries of slope 0 on all sides with the ghost cells filled as the boundary helper does. The history is that of the semi-discrete equations; the time steps of the integrator are not part of it. In 3D only the ghost cells next to the faces are modelled (the others are not read)."
  },
  {
   "property": "C156",
   "status": "partial",
   "theorems": [
    "AMPE.Substitute.Props.c156_once_partial",
    "AMPE.Substitute.Props.c156_violation_repeated",
    "AMPE.Substitute.Props.c156_violation_wanted",
    "AMPE.Substitute.Props.c156_violation_blanks",
    "AMPE.Substitute.Props.c156_short"
   ],
   "note": "Partial: proved for files in which at most one line sets the parameter with blanks around '='.  A parameter set on several lines (c156_violation_repeated) garbles the later ones, c156_violation_wanted shows the result differs from the wanted file, and `name=value` without blanks is silently left unchanged (c156_violation_blanks); a line with only the name and '=' stops the script (c156_short)."
  },
  {
   "property": "C157",
   "status": "partial",
   "theorems": [
    "AMPE.VolFrac.Props.c157_log",
    "AMPE.VolFrac.Props.c157_table_partial",
    "AMPE.VolFrac.Props.c157_fresh",
    "AMPE.VolFrac.Props.c157_violation_far",
    "AMPE.VolFrac.Props.c157_violation_cut"
   ],
   "note": "c157_log: in the log of every run the last time told above a volume fraction is the time of its evaluation.  Partial: the script's table is proved right when a line with the time is at most 999 lines above every volume fraction; with more lines in between it prints the time of the entry before (c157_violation_far), and on a log that begins with a volume fraction it takes the last time of the file (c157_violation_cut)."
  },
  {
   "property": "C158",
   "status": "proved",
   "theorems": [
    "AMPE.MeltHistory.Props.c158_exists",
    "AMPE.MeltHistory.Props.c158_unique",
    "AMPE.MeltHistory.Props.c158_rests",
    "AMPE.MeltHistory.Props.c158_exists3",
    "AMPE.MeltHistory.Props.c158_unique3",
    "AMPE.MeltHistory.Props.c158_rests3"
   ],
   "note": "Closed 2D and 3D samples, linear interpolation, both thermal driving forces, constant heat capacity, mobility fixed in time (it may differ from cell to cell); existence for mobilities and conductivity >= 0, rest for positive ones. Exact solution of the differential equations of the cells. The interpolations 'p' and 'h' are in C146."
  },
  {
   "property": "C159",
   "status": "proved",
   "theorems": [
    "AMPE.MeltWalls.Props.c159_exists",
    "AMPE.MeltWalls.Props.c159_unique",
    "AMPE.MeltWalls.Props.c159_rests",
    "AMPE.MeltWalls.Props.c159_exists3",
    "AMPE.MeltWalls.Props.c159_unique3",
    "AMPE.MeltWalls.Props.c159_rests3"
   ],
   "note": "2D and 3D. One patch that is the whole box, pure material with linear interpolation 'l', bulk force 'delta T' energy, constant heat capacity, zero-gradient conditions for phase and temperature on every side."
  },
  {
   "property": "C160",
   "status": "partial",
   "theorems": [
    "AMPE.GrainScripts.Props.c160_table",
    "AMPE.GrainScripts.Props.c160_history_partial",
    "AMPE.GrainScripts.Props.c160_all",
    "AMPE.GrainScripts.Props.c160_violation_returns",
    "AMPE.GrainScripts.Props.c160_violation_no_cycle",
    "AMPE.GrainScripts.Props.c160_violation_coring"
   ],
   "note": "c160_table gives the table for every log in which reports follow the line of their cycle; c160_history_partial: correct if no grain number comes back after it was missing. Violations: number that comes back (nucleation), report in a cycle whose line was not printed, coring script below 49 cycles."
  },
  {
   "property": "C161",
   "status": "partial",
   "theorems": [
    "AMPE.GrainScripts.Props.c161_stored_partial",
    "AMPE.GrainScripts.Props.c161_violation_next",
    "AMPE.GrainScripts.Props.c161_violation_last",
    "AMPE.GrainScripts.Props.c161_shares"
   ],
   "note": "c161_shares: the printed distribution is right for every dictionary. c161_stored_partial: right time if another line follows. Violations: report directly followed by the next cycle line is stored under the wrong time; report at the end of the log is lost."
  },
  {
   "property": "C162",
   "status": "partial",
   "theorems": [
    "AMPE.CalphadFile.Props.c162_input",
    "AMPE.CalphadFile.Props.c162_json_partial",
    "AMPE.CalphadFile.Props.c162_violation_json",
    "AMPE.CalphadFile.Props.c162_violation_short",
    "AMPE.CalphadFile.Props.c162_violation_name",
    "AMPE.CalphadFile.Props.c162_violation_newton"
   ],
   "note": "Proved: with a file in input syntax (name of at least four letters not ending in json) every run that is not refused starts and all its parts get the same tree; the same database converted by convertDatabase2JSON starts the same run unless a part needs input syntax. Violated: EBS with composition dependent diffusion, Aziz partitioning and ternary alloys with Kim's mobility cannot start from JSON; names of less than four letters throw; the syntax is guessed from the last four letters only; Aziz partitioning without a NewtonSolver section dereferences a null pointer. Not modelled: what the parts do with the tree, the JSON text."
  },
  {
   "property": "C163",
   "status": "partial",
   "theorems": [
    "AMPE.Profiles.Props.c163_ramp",
    "AMPE.Profiles.Props.c163_ramp_mean",
    "AMPE.Profiles.Props.c163_tent_partial",
    "AMPE.Profiles.Props.c163_mirror_partial",
    "AMPE.Profiles.Props.c163_violation_odd",
    "AMPE.Profiles.Props.c163_violation_single"
   ],
   "note": "Proved for all numbers of columns: the temperature of add_temperature.py rises linearly, its mean is 837.15 and it stays within 20 degrees; for an even number of columns the profiles of make_init_1d.py are the symmetric tents asked for. Violated: for odd numbers the tip is half a column off and the last column overshoots; a single column divides by zero."
  },
  {
   "property": "C164",
   "status": "partial",
   "theorems": [
    "AMPE.Bain.Props.c164_distance",
    "AMPE.Bain.Props.c164_sphere_partial",
    "AMPE.Bain.Props.c164_inside",
    "AMPE.Bain.Props.c164_violation_cut",
    "AMPE.Bain.Props.c164_fields",
    "AMPE.Bain.Props.c164_owner",
    "AMPE.Bain.Props.c164_violation_nominal",
    "AMPE.Bain.Props.c164_nominal_partial",
    "AMPE.Bain.Props.c164_violation_negative",
    "AMPE.Bain.Props.c164_apart",
    "AMPE.Bain.Props.c164_variants",
    "AMPE.Bain.Props.c164_three",
    "AMPE.Bain.Props.c164_violation_qlen"
   ],
   "note": "Proved: in a cube a nucleus sets exactly the cells within its radius, periodic images included (both scripts' distance functions are the least one over the images); fields and orientation come from a nucleus that sets the cell; with the default phases the mean composition is the nominal one; nuclei whose centres end in the box do not overlap; the orientations are unit rotations by 45 degrees about the three axes in turn. Violated: in a box that is not a cube nuclei are cut at periodic boundaries; other phases shift the mean composition; the outside may get a negative composition; fewer than four components do not describe the orientation, more are an error. Not modelled: the moving of centres in two dimensions."
  },
  {
   "property": "C165",
   "status": "partial",
   "theorems": [
    "AMPE.LinePlot.Props.c165_points_partial",
    "AMPE.LinePlot.Props.c165_violation_first",
    "AMPE.LinePlot.Props.c165_violation_short",
    "AMPE.LinePlot.Props.c165_violation_python3",
    "AMPE.LinePlot.Props.c165_labels_partial",
    "AMPE.LinePlot.Props.c165_violation_labels"
   ],
   "note": "c165_points_partial: what plotConcentrations.py plots from a file of lineplotPhiQuat.py is the list of points of the line without the first, for any curve with at least three points; c165_violation_first: never the whole list, because the header has no end of line and the first point is read as part of the comment; c165_violation_short: with at most two points the plotting script fails; c165_violation_python3: under Python 3 nothing is written. c165_labels_partial: each file gets the curve of its field and dump if every dump has the fields of the first; c165_violation_labels: otherwise the file of the second dump's first field contains a curve of the first dump."
  },
  {
   "property": "C166",
   "status": "partial",
   "theorems": [
    "AMPE.OptionalBlocks.Props.c166_flags_partial",
    "AMPE.OptionalBlocks.Props.c166_violation_flags",
    "AMPE.OptionalBlocks.Props.c166_start_iff",
    "AMPE.OptionalBlocks.Props.c166_violation_velocity",
    "AMPE.OptionalBlocks.Props.c166_violation_velocity_off",
    "AMPE.OptionalBlocks.Props.c166_symmetry_iff",
    "AMPE.OptionalBlocks.Props.c166_violation_symmetry",
    "AMPE.OptionalBlocks.Props.c166_fundamental_safe",
    "AMPE.OptionalBlocks.Props.c166_numbering",
    "AMPE.OptionalBlocks.Props.c166_reset_iff",
    "AMPE.OptionalBlocks.Props.c166_violation_reset",
    "AMPE.OptionalBlocks.Props.c166_advance_iff",
    "AMPE.OptionalBlocks.Props.c166_violation_anisotropy",
    "AMPE.OptionalBlocks.Props.c166_advance_entries",
    "AMPE.OptionalBlocks.Props.c166_grains_partial",
    "AMPE.OptionalBlocks.Props.c166_rigid_off",
    "AMPE.OptionalBlocks.Props.c166_rigid_partial",
    "AMPE.OptionalBlocks.Props.c166_violation_rigid",
    "AMPE.OptionalBlocks.Props.c166_rigid_single",
    "AMPE.OptionalBlocks.Props.c166_rigid_refused"
   ],
   "note": "c166_flags_partial: with a positive output interval every output option is the given one or its default. c166_violation_flags / c166_start_iff: without output the flag for grain output is read although no constructor or reader has set it, so the start is well defined exactly if output is asked for. c166_violation_velocity: velocity_output is ignored without output; c166_violation_velocity_off: velocity_output = FALSE removes the velocity Aziz's model needs (then see c92_violation_no_velocity). c166_symmetry_iff, c166_violation_symmetry: a block Symmetry without the optional entry leaves symmetry off. c166_fundamental_safe, c166_numbering: intervals and variables exist where they are used. c166_reset_iff, c166_violation_reset: GrainExtension without GrainDiagnostics on more than one level dereferences a null pointer. c166_advance_iff, c166_violation_anisotropy: GrainExtension with orientations that do not evolve stops in the first step. The block RigidBody is accepted with a single order parameter, or with a threshold and no composition, and the run then fails in its first step (c166_violation_rigid)."
  },
  {
   "property": "C167",
   "status": "partial",
   "theorems": [
    "AMPE.TempInput.Props.c167_type_partial",
    "AMPE.TempInput.Props.c167_default",
    "AMPE.TempInput.Props.c167_violation_file",
    "AMPE.TempInput.Props.c167_method_iff",
    "AMPE.TempInput.Props.c167_violation_method",
    "AMPE.TempInput.Props.c167_steady_iff",
    "AMPE.TempInput.Props.c167_violation_source",
    "AMPE.TempInput.Props.c167_violation_solver",
    "AMPE.TempInput.Props.c167_violation_unchecked",
    "AMPE.TempInput.Props.c167_volume",
    "AMPE.TempInput.Props.c167_value_partial",
    "AMPE.TempInput.Props.c167_value_iff",
    "AMPE.TempInput.Props.c167_violation_names"
   ],
   "note": "The type of temperature is characterised for every text, the steady equation for every input (with assertions: exactly which inputs run, and the coefficients in pJ/um^3). Partial because the type `file`, listed as valid, always stops the program. Violations: other spellings of `steady` silently give the time-dependent equation; one-entry source is read out of bounds and further entries are ignored; Gaussian source without the solver block dereferences null; without assertions unknown source types are taken as Gaussian, a source by composition without composition is undefined and without molar volume it is not a number. The deprecated entries for a uniform temperature override the current one."
  }
 ]
}
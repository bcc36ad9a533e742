{
 "claims": [
  {
   "property": "C01",
   "status": "proved",
   "theorems": [
    "SpectralDNS.Periodic.C01_rhs_divergence",
    "SpectralDNS.Periodic.C01_rhs_solenoidal",
    "SpectralDNS.Periodic.C01_mean_mode"
   ],
   "note": ""
  },
  {
   "property": "C02",
   "status": "proved",
   "theorems": [
    "SpectralDNS.Periodic.C02_divergence_free_preserved",
    "SpectralDNS.Periodic.C02_divergence_heat"
   ],
   "note": ""
  },
  {
   "property": "C03",
   "status": "proved",
   "theorems": [
    "SpectralDNS.Periodic.C03_project_solenoidal",
    "SpectralDNS.Periodic.C03_project_along",
    "SpectralDNS.Periodic.C03_project_fixes",
    "SpectralDNS.Periodic.C03_project_idempotent",
    "SpectralDNS.Periodic.C03_project_mean",
    "SpectralDNS.Periodic.C03_project_linear",
    "SpectralDNS.Periodic.C03_project_orthogonal",
    "SpectralDNS.Periodic.C03_project_selfadjoint",
    "SpectralDNS.Periodic.C03_project_energy",
    "SpectralDNS.Periodic.C03_project_energy_le"
   ],
   "note": ""
  },
  {
   "property": "C04",
   "status": "proved",
   "theorems": [
    "SpectralDNS.Periodic.C04_pressure",
    "SpectralDNS.Periodic.C04_pressure_unique"
   ],
   "note": ""
  },
  {
   "property": "C05",
   "status": "proved",
   "theorems": [
    "SpectralDNS.Periodic.C05_mean_momentum",
    "SpectralDNS.Periodic.C05_mean_MHD"
   ],
   "note": ""
  },
  {
   "property": "C06",
   "status": "proved",
   "theorems": [
    "SpectralDNS.Periodic.C06_convection_forms",
    "SpectralDNS.Periodic.C06_accepted",
    "SpectralDNS.Periodic.C06_single_form",
    "SpectralDNS.Periodic.C06_skewed_mean"
   ],
   "note": ""
  },
  {
   "property": "C07",
   "status": "proved",
   "theorems": [
    "SpectralDNS.Periodic.C07_energy_rate",
    "SpectralDNS.Periodic.C07_energy_rate_2D",
    "SpectralDNS.Periodic.C07_energy_derivative",
    "SpectralDNS.Periodic.C07_energy_antitone",
    "SpectralDNS.Periodic.C07_energy_rate_fft"
   ],
   "note": ""
  },
  {
   "property": "C08",
   "status": "proved",
   "theorems": [
    "SpectralDNS.Periodic.C08_velocity_solenoidal",
    "SpectralDNS.Periodic.C08_curl_velocity",
    "SpectralDNS.Periodic.C08_velocity_of_curl",
    "SpectralDNS.Periodic.C08_velocity_of_curl_general",
    "SpectralDNS.Periodic.C08_get_divergence_blind"
   ],
   "note": ""
  },
  {
   "property": "C09",
   "status": "proved",
   "theorems": [
    "SpectralDNS.Periodic.C09_same_flow_fft",
    "SpectralDNS.Periodic.C09_rhs_curl",
    "SpectralDNS.Periodic.C09_same_flow",
    "SpectralDNS.Periodic.C09_mean_zero"
   ],
   "note": ""
  },
  {
   "property": "C10",
   "status": "proved",
   "theorems": [
    "SpectralDNS.Periodic.C10_rhs_divergence",
    "SpectralDNS.Periodic.C10_vorticity_solenoidal",
    "SpectralDNS.Periodic.C10_mean_vorticity"
   ],
   "note": ""
  },
  {
   "property": "C11",
   "status": "proved",
   "theorems": [
    "SpectralDNS.Periodic.C11_magnetic_rhs_divergence",
    "SpectralDNS.Periodic.C11_velocity_rhs_divergence",
    "SpectralDNS.Periodic.C11_divergence_free_preserved",
    "SpectralDNS.Periodic.C11_magnetic_only"
   ],
   "note": ""
  },
  {
   "property": "C12",
   "status": "proved",
   "theorems": [
    "SpectralDNS.Periodic.C12_elsasser",
    "SpectralDNS.Periodic.C12_reduction",
    "SpectralDNS.Periodic.C12_flip"
   ],
   "note": ""
  },
  {
   "property": "C13",
   "status": "proved",
   "theorems": [
    "SpectralDNS.Periodic.C13_rhs",
    "SpectralDNS.Periodic.C13_rhs_divergence",
    "SpectralDNS.Periodic.C13_divergence_free_preserved",
    "SpectralDNS.Periodic.C13_reduction",
    "SpectralDNS.Periodic.C13_mean_density",
    "SpectralDNS.Periodic.C13_rest",
    "SpectralDNS.Periodic.C13_rest_fft"
   ],
   "note": ""
  },
  {
   "property": "C14",
   "status": "proved",
   "theorems": [
    "SpectralDNS.Periodic.C14_rhs",
    "SpectralDNS.Periodic.C14_same_flow",
    "SpectralDNS.Periodic.C14_same_flow_fft"
   ],
   "note": ""
  },
  {
   "property": "C15",
   "status": "proved",
   "theorems": [
    "SpectralDNS.Periodic.C15_Bq2D",
    "SpectralDNS.Periodic.C15_NS_fft",
    "SpectralDNS.Periodic.C15_VV_fft",
    "SpectralDNS.Periodic.C15_MHD_fft",
    "SpectralDNS.Periodic.C15_unmasked_even_false",
    "SpectralDNS.Periodic.C15_NS",
    "SpectralDNS.Periodic.C15_NS2D",
    "SpectralDNS.Periodic.C15_VV",
    "SpectralDNS.Periodic.C15_MHD"
   ],
   "note": ""
  },
  {
   "property": "C16",
   "status": "proved",
   "theorems": [
    "SpectralDNS.Periodic.C16_rhs_masked",
    "SpectralDNS.Periodic.C16_unmasked_unchanged",
    "SpectralDNS.Periodic.C16_NS",
    "SpectralDNS.Periodic.C16_VV",
    "SpectralDNS.Periodic.C16_MHD",
    "SpectralDNS.Periodic.C16_Bq2D"
   ],
   "note": ""
  },
  {
   "property": "C17",
   "status": "proved",
   "theorems": [
    "SpectralDNS.C17_rk4_classical"
   ],
   "note": ""
  },
  {
   "property": "C18",
   "status": "proved",
   "theorems": [
    "SpectralDNS.C18_rk4_linear",
    "SpectralDNS.C18_euler_linear",
    "SpectralDNS.C18_rk4_diffusion",
    "SpectralDNS.C18_euler_diffusion"
   ],
   "note": ""
  },
  {
   "property": "C19",
   "status": "proved",
   "theorems": [
    "SpectralDNS.C19_ab2_fresh",
    "SpectralDNS.C19_named"
   ],
   "note": ""
  },
  {
   "property": "C20",
   "status": "partial",
   "theorems": [
    "SpectralDNS.C20_second_solve_false",
    "SpectralDNS.C20_restart_step",
    "SpectralDNS.C20_restart_iff_partial"
   ],
   "note": "The property is false of the code: C20_second_solve_false. The exact behaviour of the first step after re-entry is C20_restart_step; the partial theorem characterises when it agrees."
  },
  {
   "property": "C21",
   "status": "proved",
   "theorems": [
    "SpectralDNS.C21_bs5_order5",
    "SpectralDNS.C21_bs5_embedded_order4",
    "SpectralDNS.C21_bs5_embedded_not_order5",
    "SpectralDNS.C21_bs5_explicit_fsal",
    "SpectralDNS.C21_bs5_linear"
   ],
   "note": ""
  },
  {
   "property": "C22",
   "status": "proved",
   "theorems": [
    "SpectralDNS.C22_fsal_refines",
    "SpectralDNS.C22_fsal_refines_fixed",
    "SpectralDNS.C22_named",
    "SpectralDNS.C22_fsal_any_tableau"
   ],
   "note": ""
  },
  {
   "property": "C23",
   "status": "partial",
   "theorems": [
    "SpectralDNS.C23_restart_false",
    "SpectralDNS.C23_restart_exact",
    "SpectralDNS.C23_callback_exact",
    "SpectralDNS.C23_callback_partial",
    "SpectralDNS.C23_callback_false"
   ],
   "note": "The property is false of the code: C23_restart_false, C23_callback_false. Exact behaviour: C23_restart_exact, C23_callback_exact."
  },
  {
   "property": "C24",
   "status": "proved",
   "theorems": [
    "SpectralDNS.C24_controller_bounds",
    "SpectralDNS.C24_factor_range",
    "SpectralDNS.C24_factor_formula",
    "SpectralDNS.C24_factor_special"
   ],
   "note": ""
  },
  {
   "property": "C25",
   "status": "proved",
   "theorems": [
    "SpectralDNS.C25_accepted",
    "SpectralDNS.C25_nan_accepted",
    "SpectralDNS.C25_terminates",
    "SpectralDNS.C25_terminates_log",
    "SpectralDNS.C25_fixed"
   ],
   "note": ""
  },
  {
   "property": "C26",
   "status": "proved",
   "theorems": [
    "SpectralDNS.C26_estimate",
    "SpectralDNS.C26_no_deadlock",
    "SpectralDNS.C26_trials"
   ],
   "note": ""
  },
  {
   "property": "C27",
   "status": "proved",
   "theorems": [
    "SpectralDNS.Solve.C27_step_count"
   ],
   "note": ""
  },
  {
   "property": "C28",
   "status": "proved",
   "theorems": [
    "SpectralDNS.Solve.C28_ends_at_T",
    "SpectralDNS.Solve.C28_no_overshoot",
    "SpectralDNS.Solve.C28_contract"
   ],
   "note": ""
  },
  {
   "property": "C29",
   "status": "proved",
   "theorems": [
    "SpectralDNS.Solve.C29_bounded_steps"
   ],
   "note": ""
  },
  {
   "property": "C30",
   "status": "proved",
   "theorems": [
    "SpectralDNS.Solve.C30_bookkeeping",
    "SpectralDNS.Solve.C30_call_order",
    "SpectralDNS.Solve.C30_log_faithful"
   ],
   "note": ""
  },
  {
   "property": "C31",
   "status": "partial",
   "theorems": [
    "SpectralDNS.Solve.C31_zero_step_false",
    "SpectralDNS.Solve.C31_zero_step_partial"
   ],
   "note": "False of the code: C31_zero_step_false (close() raises because no file was created). C31_zero_step_partial: it returns when the files exist already."
  },
  {
   "property": "C32",
   "status": "proved",
   "theorems": [
    "SpectralDNS.Solve.C32_split_periodic",
    "SpectralDNS.Solve.C32_split_methods",
    "SpectralDNS.Solve.C32_split_channel",
    "SpectralDNS.Solve.C32_short_rest_differs"
   ],
   "note": ""
  },
  {
   "property": "C33",
   "status": "proved",
   "theorems": [
    "SpectralDNS.Channel.C33_kmm",
    "SpectralDNS.Channel.C33_kmmrk3",
    "SpectralDNS.Channel.C33_get_divergence",
    "SpectralDNS.Channel.C33_get_divergence_rk3"
   ],
   "note": ""
  },
  {
   "property": "C34",
   "status": "proved",
   "theorems": [
    "SpectralDNS.Channel.C34_step",
    "SpectralDNS.Channel.C34_run"
   ],
   "note": ""
  },
  {
   "property": "C35",
   "status": "proved",
   "theorems": [
    "SpectralDNS.Channel.C35_fractions",
    "SpectralDNS.Channel.C35_substeps",
    "SpectralDNS.Channel.C35_order",
    "SpectralDNS.Channel.C35_linear",
    "SpectralDNS.Channel.C35_explicit"
   ],
   "note": ""
  },
  {
   "property": "C36",
   "status": "partial",
   "theorems": [
    "SpectralDNS.Channel.C36_restart_partial",
    "SpectralDNS.Channel.C36_mean_repeated",
    "SpectralDNS.Channel.C36_mean_false",
    "SpectralDNS.Channel.C36_vortex_false"
   ],
   "note": "False of the code: MKM.py init_from_file leaves U_hat0 at the older level, from which the next step takes the mean flow (C36_mean_false, C36_mean_repeated), and evaluates the older convection with a stale g (C36_vortex_false). Proved when the mean flow is steady and the convection form ignores g."
  },
  {
   "property": "C37",
   "status": "proved",
   "theorems": [
    "SpectralDNS.Channel.C37_future",
    "SpectralDNS.Channel.C37_restart"
   ],
   "note": ""
  },
  {
   "property": "C38",
   "status": "proved",
   "theorems": [
    "SpectralDNS.LUsolve.C38_derivative",
    "SpectralDNS.LUsolve.C38_derivative_3D"
   ],
   "note": ""
  },
  {
   "property": "C39",
   "status": "proved",
   "theorems": [
    "SpectralDNS.LUsolve.C39_projection",
    "SpectralDNS.LUsolve.C39_projection_3D"
   ],
   "note": ""
  },
  {
   "property": "C40",
   "status": "proved",
   "theorems": [
    "SpectralDNS.Solve.C40_one_output_per_step",
    "SpectralDNS.Solve.C40_results",
    "SpectralDNS.Solve.C40_schedule"
   ],
   "note": ""
  },
  {
   "property": "C41",
   "status": "proved",
   "theorems": [
    "SpectralDNS.Solve.C41_consistent"
   ],
   "note": ""
  },
  {
   "property": "C42",
   "status": "partial",
   "theorems": [
    "SpectralDNS.Solve.C42_torn_false",
    "SpectralDNS.Solve.C42_run_false",
    "SpectralDNS.Solve.C42_old_or_new_partial",
    "SpectralDNS.Solve.C42_append_false"
   ],
   "note": "False of the code: C42_torn_false, C42_run_false, C42_append_false. C42_old_or_new_partial: every item is that of the previous state or of the current step."
  },
  {
   "property": "C43",
   "status": "partial",
   "theorems": [
    "SpectralDNS.Solve.C43_all_ranks_partial",
    "SpectralDNS.Solve.C43_other_directory_false"
   ],
   "note": "Holds when the file exists at removal by rank 0 (C43_all_ranks_partial); false when only another rank's directory has it: C43_other_directory_false."
  },
  {
   "property": "C44",
   "status": "proved",
   "theorems": [
    "SpectralDNS.Opt.C44_callable",
    "SpectralDNS.Opt.C44_never_none"
   ],
   "note": ""
  },
  {
   "property": "C45",
   "status": "partial",
   "theorems": [
    "SpectralDNS.Opt.C45_rk4",
    "SpectralDNS.Opt.C45_rk4_2D",
    "SpectralDNS.Opt.C45_ab2",
    "SpectralDNS.Opt.C45_forwardEuler",
    "SpectralDNS.Opt.C45_forwardEuler_cython_false",
    "SpectralDNS.Opt.C45_ab2_2D_partial",
    "SpectralDNS.Opt.C45_ab2_2D_first",
    "SpectralDNS.Opt.C45_ab2_2D_false"
   ],
   "note": "Proved for RK4 (all variants), AB2 in three dimensions and the numba/pythran ForwardEuler. False for cython's AB2_2D (tests tstep == 1, C45_ab2_2D_false) and cython's ForwardEuler (wrong number of parameters, C45_forwardEuler_cython_false)."
  },
  {
   "property": "C46",
   "status": "partial",
   "theorems": [
    "SpectralDNS.Opt.C46_cross1",
    "SpectralDNS.Opt.C46_cross2_cython",
    "SpectralDNS.Opt.C46_cross3_cython",
    "SpectralDNS.Opt.C46_cross2a_numba",
    "SpectralDNS.Opt.C46_cross2c_numba",
    "SpectralDNS.Opt.C46_cross1_2D",
    "SpectralDNS.Opt.C46_cross2_2D_cython",
    "SpectralDNS.Opt.C46_cross3_2D_partial",
    "SpectralDNS.Opt.C46_cross3_2D_false",
    "SpectralDNS.Opt.C46_cross3_2D_numpy",
    "SpectralDNS.Opt.C46_cross3_2D_false_past_end",
    "SpectralDNS.Opt.C46_cross3_2D_out_of_bounds",
    "SpectralDNS.Opt.C46_pressure_NS_cython",
    "SpectralDNS.Opt.C46_pressure_NS_numba",
    "SpectralDNS.Opt.C46_pressure_NS2D",
    "SpectralDNS.Opt.C46_pressure_Bq2D",
    "SpectralDNS.Opt.C46_compute_vw",
    "SpectralDNS.Opt.C46_mult_K1j",
    "SpectralDNS.Opt.C46_assembleAB"
   ],
   "note": "Proved for every kernel except cython's _cross3_2D, which reads kx[i,j] and ky[i,j] in arrays of shapes (n0,1) and (1,n1): false on C-ordered arrays (C46_cross3_2D_false)."
  },
  {
   "property": "C47",
   "status": "proved",
   "theorems": [
    "SpectralDNS.Config.C47_mesh_size",
    "SpectralDNS.Config.C47_dx",
    "SpectralDNS.Config.C47_access"
   ],
   "note": ""
  },
  {
   "property": "C48",
   "status": "proved",
   "theorems": [
    "SpectralDNS.Config.C48_cast",
    "SpectralDNS.Config.C48_reads",
    "SpectralDNS.Config.C48_round_trip"
   ],
   "note": ""
  },
  {
   "property": "C49",
   "status": "partial",
   "theorems": [
    "SpectralDNS.Config.C49_mesh_option",
    "SpectralDNS.Config.C49_undeclared",
    "SpectralDNS.Config.C49_common_exact",
    "SpectralDNS.Config.C49_common_option_partial",
    "SpectralDNS.Config.C49_sub_option_false",
    "SpectralDNS.Config.C49_demo_false",
    "SpectralDNS.Config.C49_leak_false"
   ],
   "note": "Proved for options of a mesh parser (C49_mesh_option) and undeclared options. False for sub-parser options (C49_sub_option_false, C49_demo_false: KelvinHelmoltzBoussinesq.py's Ri and Pr are ignored) and for shared options when another mesh was updated (C49_leak_false)."
  },
  {
   "property": "C50",
   "status": "partial",
   "theorems": [
    "SpectralDNS.Config.C50_table_partial",
    "SpectralDNS.Config.C50_Bq_false",
    "SpectralDNS.Config.C50_convection_false"
   ],
   "note": "False of the code: C50_Bq_false, C50_convection_false. The entries that do exist: C50_table_partial."
  },
  {
   "property": "C51",
   "status": "proved",
   "theorems": [
    "SpectralDNS.Utilities.C51_bounds",
    "SpectralDNS.Utilities.C51_attained",
    "SpectralDNS.Utilities.C51_elapsed",
    "SpectralDNS.Utilities.C51_ranks"
   ],
   "note": ""
  },
  {
   "property": "C52",
   "status": "proved",
   "theorems": [
    "SpectralDNS.Utilities.C52_decomposition",
    "SpectralDNS.Utilities.C52_linear",
    "SpectralDNS.Utilities.C52_gauss_exact",
    "SpectralDNS.Utilities.C52_lobatto_exact",
    "SpectralDNS.Utilities.C52_lobatto_exact_any",
    "SpectralDNS.Utilities.C52_other_exact",
    "SpectralDNS.Utilities.C52_lobatto_odd_false"
   ],
   "note": ""
  },
  {
   "property": "C53",
   "status": "proved",
   "theorems": [
    "SpectralDNS.Utilities.C53_averages",
    "SpectralDNS.Utilities.C53_reload",
    "SpectralDNS.Utilities.C53_interrupted_eq",
    "SpectralDNS.Utilities.C53_uneven_slices_false"
   ],
   "note": ""
  },
  {
   "property": "C54",
   "status": "proved",
   "theorems": [
    "SpectralDNS.Short.C54_forward",
    "SpectralDNS.Short.C54_wavenumbers",
    "SpectralDNS.Short.C54_owner",
    "SpectralDNS.Short.C54_rows",
    "SpectralDNS.Short.C54_backward",
    "SpectralDNS.Short.C54_inverse",
    "SpectralDNS.Short.C54_inverse_spectral"
   ],
   "note": ""
  },
  {
   "property": "C55",
   "status": "partial",
   "theorems": [
    "SpectralDNS.Dealias.C55_two_thirds_iff",
    "SpectralDNS.Dealias.C55_two_thirds_partial",
    "SpectralDNS.Dealias.C55_two_thirds_false",
    "SpectralDNS.Dealias.C55_three_halves",
    "SpectralDNS.Dealias.C55_none_false",
    "SpectralDNS.Dealias.C55_product_rspace"
   ],
   "note": "For even N the rule is alias free exactly when N%3=1 (C55_two_thirds_iff), so it is false e.g. for N=32 (C55_two_thirds_false); it holds for those N (C55_two_thirds_partial). Padding by 3/2 is alias free for every N (C55_three_halves); without dealiasing it fails (C55_none_false)."
  },
  {
   "property": "C56",
   "status": "partial",
   "theorems": [
    "SpectralDNS.Isotropic.C56_forcing",
    "SpectralDNS.Isotropic.C56_forcing_fails",
    "SpectralDNS.Isotropic.C56_forcing_keeps",
    "SpectralDNS.Isotropic.C56_run",
    "SpectralDNS.Isotropic.C56_forcing_VV",
    "SpectralDNS.Isotropic.C56_initial",
    "SpectralDNS.Isotropic.C56_initial_real",
    "SpectralDNS.Isotropic.C56_initial_VV_false",
    "SpectralDNS.Isotropic.C56_raw_divergence",
    "SpectralDNS.Isotropic.C56_target"
   ],
   "note": "Proved for NS, and the forcing for VV. The initialization is false for VV: C56_initial_VV_false (the velocity is overwritten by that of zero vorticity, so the rescaling fails)."
  },
  {
   "property": "C57",
   "status": "partial",
   "theorems": [
    "SpectralDNS.C57_rank_dependent_false",
    "SpectralDNS.C57_scaling_partial"
   ],
   "note": "The property is false of the code: C57_rank_dependent_false; the estimate scales with sqrt(global size / size on rank 0): C57_scaling_partial."
  },
  {
   "property": "C58",
   "status": "partial",
   "theorems": [
    "SpectralDNS.Isotropic.C58_phase_exact",
    "SpectralDNS.Isotropic.C58_angle_exact",
    "SpectralDNS.Isotropic.C58_phase_false",
    "SpectralDNS.Isotropic.C58_spectrum_exact",
    "SpectralDNS.Isotropic.C58_spectrum_false",
    "SpectralDNS.Isotropic.C58_shape"
   ],
   "note": "False of the code: the angles are multiplied by 2j*pi, so phases are positive reals (C58_phase_exact, C58_phase_false) and the spectrum is not Ek/(4 pi k^2) (C58_spectrum_exact, C58_spectrum_false). Ek itself is the square root of the cited model spectrum (C58_shape)."
  },
  {
   "property": "C59",
   "status": "proved",
   "theorems": [
    "SpectralDNS.Isotropic.C59_shell",
    "SpectralDNS.Isotropic.C59_partition"
   ],
   "note": ""
  },
  {
   "property": "C60",
   "status": "proved",
   "theorems": [
    "SpectralDNS.Short.C60_field",
    "SpectralDNS.Short.C60_curl",
    "SpectralDNS.Short.C60_rhs",
    "SpectralDNS.Short.C60_refines",
    "SpectralDNS.Short.C60_solenoidal",
    "SpectralDNS.Short.C60_start"
   ],
   "note": ""
  },
  {
   "property": "C61",
   "status": "proved",
   "theorems": [
    "SpectralDNS.Short.C61_ranks",
    "SpectralDNS.Short.C61_two_runs"
   ],
   "note": ""
  },
  {
   "property": "C62",
   "status": "partial",
   "theorems": [
    "SpectralDNS.Short.C62_rhs_exact",
    "SpectralDNS.Short.C62_rhs_partial",
    "SpectralDNS.Short.C62_first_step_partial",
    "SpectralDNS.Short.C62_velocity_exact",
    "SpectralDNS.Short.C62_velocity_false",
    "SpectralDNS.Short.C62_coefficients_false",
    "SpectralDNS.Short.C62_mean_false"
   ],
   "note": "False of the code: the velocity is not recomputed after the step (C62_velocity_false, C62_coefficients_false) and the mean mode is damped (C62_mean_false). What does agree: C62_rhs_partial, C62_first_step_partial; what is computed instead: C62_rhs_exact, C62_velocity_exact."
  },
  {
   "property": "C63",
   "status": "partial",
   "theorems": [
    "SpectralDNS.Channel.C63_step_partial",
    "SpectralDNS.Channel.C63_run_partial",
    "SpectralDNS.Channel.C63_rk3",
    "SpectralDNS.Channel.C63_defect",
    "SpectralDNS.Channel.C63_quadrature_false"
   ],
   "note": "False for KMM_RB: TC is created without the quadrature argument, so its mass matrix is the Gauss-Lobatto one while the solver uses the Gauss one (C63_defect gives the difference for every grid); C63_quadrature_false: on four points pure conduction grows geometrically when 48 kappa dt < 2. C63_step_partial and C63_run_partial hold when the matrices agree; C63_rk3 with the default quadrature."
  },
  {
   "property": "C64",
   "status": "proved",
   "theorems": [
    "SpectralDNS.Channel.C64_kmm_rb",
    "SpectralDNS.Channel.C64_kmmrk3_rb"
   ],
   "note": ""
  },
  {
   "property": "C65",
   "status": "partial",
   "theorems": [
    "SpectralDNS.Channel.C65_newest_ignored",
    "SpectralDNS.Channel.C65_step_repeated",
    "SpectralDNS.Channel.C65_clock",
    "SpectralDNS.Channel.C65_clock_false",
    "SpectralDNS.Channel.C65_kmm_rb_false",
    "SpectralDNS.Channel.C65_rk3_restart_partial",
    "SpectralDNS.Channel.C65_kmm_rb_flow_partial"
   ],
   "note": "False for KMM_RB: init_from_file stores the newest temperature in phi_hat, which no step reads, and the older one in phi_hat0, so the newest checkpointed temperature is ignored (C65_newest_ignored, C65_step_repeated, C65_kmm_rb_false); params.tstep receives the time and params.t nothing (C65_clock, C65_clock_false). Proved for the fields of KMMRK3_RB."
  },
  {
   "property": "C66",
   "status": "partial",
   "theorems": [
    "SpectralDNS.Channel.C66_error",
    "SpectralDNS.Channel.C66_steady_partial",
    "SpectralDNS.Channel.C66_centred_false"
   ],
   "note": "False: u_hat equals U_hat0 whenever ComputeRHS runs, so the average of the two is the velocity at the start of the step; C66_error gives the first-order difference, C66_centred_false a run, C66_steady_partial the case of unchanged velocity."
  },
  {
   "property": "C67",
   "status": "proved",
   "theorems": [
    "SpectralDNS.Coupled.C67_step",
    "SpectralDNS.Coupled.C67_run",
    "SpectralDNS.Coupled.C67_divergence",
    "SpectralDNS.Coupled.C67_mean_rows",
    "SpectralDNS.Coupled.C67_rk3"
   ],
   "note": ""
  },
  {
   "property": "C68",
   "status": "proved",
   "theorems": [
    "SpectralDNS.Coupled.C68_step",
    "SpectralDNS.Coupled.C68_run"
   ],
   "note": ""
  },
  {
   "property": "C69",
   "status": "partial",
   "theorems": [
    "SpectralDNS.Coupled.C69_coupled",
    "SpectralDNS.Coupled.C69_rk3_partial",
    "SpectralDNS.Coupled.C69_rk3_false"
   ],
   "note": "C69_coupled proves it for Coupled. CoupledRK3 divides the pressure gradient by a+b, so the stored pressure is one third of the pressure of the last substep (C69_rk3_partial, C69_rk3_false)."
  },
  {
   "property": "C70",
   "status": "proved",
   "theorems": [
    "SpectralDNS.Demos.C70_round_trip",
    "SpectralDNS.Demos.C70_injective",
    "SpectralDNS.Demos.C70_coefficients",
    "SpectralDNS.Demos.C70_energy_start",
    "SpectralDNS.Demos.C70_energy_state",
    "SpectralDNS.Demos.C70_vorticity"
   ],
   "note": ""
  },
  {
   "property": "C71",
   "status": "proved",
   "theorems": [
    "SpectralDNS.Demos.C71_taylor_green",
    "SpectralDNS.Demos.C71_taylor_green_vv",
    "SpectralDNS.Demos.C71_taylor_green_mhd"
   ],
   "note": ""
  },
  {
   "property": "C72",
   "status": "proved",
   "theorems": [
    "SpectralDNS.Demos.C72_rhs",
    "SpectralDNS.Demos.C72_run",
    "SpectralDNS.Demos.C72_rk4",
    "SpectralDNS.Demos.C72_error",
    "SpectralDNS.Demos.C72_regression"
   ],
   "note": ""
  },
  {
   "property": "C73",
   "status": "partial",
   "theorems": [
    "SpectralDNS.Channel.C73_standard",
    "SpectralDNS.Channel.C73_vortex",
    "SpectralDNS.Channel.C73_divergence_partial",
    "SpectralDNS.Channel.C73_coupled_divergence",
    "SpectralDNS.Channel.C73_coupled_standard",
    "SpectralDNS.Channel.C73_coupled_vortex",
    "SpectralDNS.Channel.C73_skew",
    "SpectralDNS.Channel.C73_coupled_skew",
    "SpectralDNS.Channel.C73_divergence_resolved",
    "SpectralDNS.Channel.Five.C73_divergence_false",
    "SpectralDNS.Channel.C73_cheb_exact",
    "SpectralDNS.Channel.C73_cheb_project",
    "SpectralDNS.Channel.C73_cheb_forward"
   ],
   "note": "Proved for the standard and vortex forms of KMM and for all forms of Coupled (the standard form of Coupled for fields with zero wall slope of u, which is what its space assumes). KMM's divergence and skew forms read the Dirichlet coefficients of u*u as biharmonic ones, so their wall-normal component is wrong (C73_divergence_false); the two other components are right (C73_divergence_partial)."
  },
  {
   "property": "C74",
   "status": "proved",
   "theorems": [
    "SpectralDNS.Laminar.C74_convection",
    "SpectralDNS.Laminar.C74_kmm",
    "SpectralDNS.Laminar.C74_kmm_rest",
    "SpectralDNS.Laminar.C74_poiseuille",
    "SpectralDNS.Laminar.C74_kmmrk3",
    "SpectralDNS.Laminar.C74_exact_equation",
    "SpectralDNS.Laminar.C74_exact_walls",
    "SpectralDNS.Laminar.C74_exact_start",
    "SpectralDNS.Laminar.C74_exact_steady",
    "SpectralDNS.Laminar.C74_reference"
   ],
   "note": ""
  },
  {
   "property": "C75",
   "status": "proved",
   "theorems": [
    "SpectralDNS.Galerkin.C75_kmm",
    "SpectralDNS.Galerkin.C75_kmmrk3",
    "SpectralDNS.Galerkin.C75_rb",
    "SpectralDNS.Galerkin.C75_quadrature",
    "SpectralDNS.Galerkin.C75_dirichlet"
   ],
   "note": ""
  },
  {
   "property": "C76",
   "status": "proved",
   "theorems": [
    "SpectralDNS.Galerkin.C76_kmm",
    "SpectralDNS.Galerkin.C76_kmmrk3",
    "SpectralDNS.Galerkin.C76_limit",
    "SpectralDNS.Galerkin.C76_limit3"
   ],
   "note": ""
  },
  {
   "property": "C77",
   "status": "proved",
   "theorems": [
    "SpectralDNS.Coupled.C77_coupled",
    "SpectralDNS.Coupled.C77_coupledrk3",
    "SpectralDNS.Channel.C77_kmm",
    "SpectralDNS.Channel.C77_kmmrk3"
   ],
   "note": ""
  },
  {
   "property": "C78",
   "status": "proved",
   "theorems": [
    "SpectralDNS.Channel.C78_kmm",
    "SpectralDNS.Channel.C78_kmmrk3"
   ],
   "note": ""
  },
  {
   "property": "C79",
   "status": "partial",
   "theorems": [
    "SpectralDNS.Channel.C79_convection",
    "SpectralDNS.Channel.C79_flux",
    "SpectralDNS.Channel.C79_kmm_rb_fields",
    "SpectralDNS.Channel.C79_kmmrk3_rb_fields",
    "SpectralDNS.Channel.C79_kmmrk3_rb",
    "SpectralDNS.Channel.C79_kmm_rb_partial",
    "SpectralDNS.Channel.C79_kmm_rb_false",
    "SpectralDNS.Channel.C79_buoyancy"
   ],
   "note": "Proved for KMMRK3_RB with the default quadrature and, fields and walls, for both solvers. KMM_RB creates TC without the quadrature argument, so the heat equation fails for the last test function on every grid (C79_kmm_rb_false); C79_kmm_rb_partial has all equations and all other test functions."
  },
  {
   "property": "C80",
   "status": "partial",
   "theorems": [
    "SpectralDNS.Channel.C80_kmmrk3_rb",
    "SpectralDNS.Channel.C80_kmm_rb_partial",
    "SpectralDNS.Channel.C80_kmm_rb_false"
   ],
   "note": "Proved for KMMRK3_RB with the default quadrature. False for KMM_RB, which creates TC without the quadrature argument: at every resolution some perturbation of the conduction profile grows without bound once the time step is small enough (C80_kmm_rb_false). C80_kmm_rb_partial has the property if the argument were given."
  },
  {
   "property": "C81",
   "status": "proved",
   "theorems": [
    "SpectralDNS.Periodic.C81_solutions_admissible",
    "SpectralDNS.Periodic.C81_energy",
    "SpectralDNS.Periodic.C81_helicity",
    "SpectralDNS.Periodic.C81_enstrophy",
    "SpectralDNS.Periodic.C81_mhd_solutions_admissible",
    "SpectralDNS.Periodic.C81_mhd_energy",
    "SpectralDNS.Periodic.C81_cross_helicity",
    "SpectralDNS.Periodic.C81_magnetic_helicity",
    "SpectralDNS.Periodic.C81_boussinesq",
    "SpectralDNS.Periodic.C81_energy_padded",
    "SpectralDNS.Periodic.C81_ideal",
    "SpectralDNS.Periodic.C81_mhd_ideal",
    "SpectralDNS.Periodic.C81_two_dimensions",
    "SpectralDNS.Periodic.C81_boussinesq_padded"
   ],
   "note": ""
  },
  {
   "property": "C82",
   "status": "proved",
   "theorems": [
    "SpectralDNS.Periodic.C82_same_rhs",
    "SpectralDNS.Periodic.C82_same_run",
    "SpectralDNS.Periodic.C82_padded"
   ],
   "note": ""
  },
  {
   "property": "C83",
   "status": "proved",
   "theorems": [
    "SpectralDNS.Periodic.C83_grid",
    "SpectralDNS.Periodic.C83_get_pressure",
    "SpectralDNS.Periodic.C83_divergence",
    "SpectralDNS.Periodic.C83_two_dimensions",
    "SpectralDNS.Periodic.C83_mhd",
    "SpectralDNS.Periodic.C83_boussinesq",
    "SpectralDNS.Periodic.C83_momentum",
    "SpectralDNS.Periodic.C83_solution"
   ],
   "note": ""
  },
  {
   "property": "C84",
   "status": "proved",
   "theorems": [
    "SpectralDNS.Periodic.C84_NS",
    "SpectralDNS.Periodic.C84_NS2D",
    "SpectralDNS.Periodic.C84_VV",
    "SpectralDNS.Periodic.C84_MHD",
    "SpectralDNS.Periodic.C84_Bq"
   ],
   "note": ""
  },
  {
   "property": "C85",
   "status": "proved",
   "theorems": [
    "SpectralDNS.Channel.C85_dx",
    "SpectralDNS.Channel.C85_measured",
    "SpectralDNS.Channel.C85_control",
    "SpectralDNS.Channel.C85_flux",
    "SpectralDNS.Channel.C85_parabola",
    "SpectralDNS.Channel.C85_perturbation",
    "SpectralDNS.Channel.C85_smoothed",
    "SpectralDNS.Channel.C85_start",
    "SpectralDNS.Channel.C85_states",
    "SpectralDNS.Channel.C85_first_step",
    "SpectralDNS.Channel.C85_kmm",
    "SpectralDNS.Channel.C85_kmmrk3",
    "SpectralDNS.Channel.C85_coupled"
   ],
   "note": ""
  },
  {
   "property": "C86",
   "status": "proved",
   "theorems": [
    "SpectralDNS.KMMr.C86_vortex",
    "SpectralDNS.KMMr.C86_run",
    "SpectralDNS.KMMr.C86_step",
    "SpectralDNS.KMMr.C86_get_divergence",
    "SpectralDNS.KMMr.C86_field"
   ],
   "note": ""
  },
  {
   "property": "C87",
   "status": "partial",
   "theorems": [
    "SpectralDNS.Channel.C87_solved",
    "SpectralDNS.Channel.C87_momentum_partial",
    "SpectralDNS.Channel.C87_defect",
    "SpectralDNS.Channel.C87_momentum_false",
    "SpectralDNS.Channel.C87_constant"
   ],
   "note": "The system has one solution (C87_solved) and its pressure satisfies the momentum equation for the velocities that the arrays represent in the Dirichlet basis (C87_momentum_partial). The arrays hold biharmonic coefficients, so the equation is false for the actual velocities: for every non-zero steady velocity whose last coefficient is zero (C87_momentum_false); C87_defect has the exact condition. The constant is minus the norm of the last Chebyshev polynomial times the last coefficient of the convection at every wavenumber (C87_constant), independent of the velocity."
  },
  {
   "property": "C88",
   "status": "proved",
   "theorems": [
    "SpectralDNS.Channel.OrrSommerfeld.C88_matrices",
    "SpectralDNS.Channel.OrrSommerfeld.C88_eigenvalue",
    "SpectralDNS.Channel.OrrSommerfeld.C88_selection",
    "SpectralDNS.Channel.OrrSommerfeld.C88_linear",
    "SpectralDNS.Channel.OrrSommerfeld.C88_full",
    "SpectralDNS.Channel.OrrSommerfeld.C88_flow",
    "SpectralDNS.Channel.OrrSommerfeld.C88_mode",
    "SpectralDNS.Channel.OrrSommerfeld.C88_growth",
    "SpectralDNS.Channel.OrrSommerfeld.C88_start",
    "SpectralDNS.Channel.OrrSommerfeld.C88_first_step",
    "SpectralDNS.Channel.OrrSommerfeld.C88_start_rk3"
   ],
   "note": ""
  },
  {
   "property": "C89",
   "status": "partial",
   "theorems": [
    "SpectralDNS.Demos.C89_vortices2D_curl",
    "SpectralDNS.Demos.C89_perturbation",
    "SpectralDNS.Demos.C89_kelvin_helmholtz",
    "SpectralDNS.Demos.C89_kelvin_helmholtz_solenoidal",
    "SpectralDNS.Demos.C89_kelvin_helmholtz_run",
    "SpectralDNS.Demos.C89_kelvin_helmholtz_profile",
    "SpectralDNS.Demos.C89_layer",
    "SpectralDNS.Demos.C89_boussinesq",
    "SpectralDNS.Demos.C89_boussinesq_run",
    "SpectralDNS.Demos.C89_vortices2D",
    "SpectralDNS.Demos.C89_stream",
    "SpectralDNS.Demos.C89_vortices2D_nyquist_false",
    "SpectralDNS.Demos.C89_vortices",
    "SpectralDNS.Demos.C89_vortices_source",
    "SpectralDNS.Demos.C89_vortices_run",
    "SpectralDNS.Demos.C89_vortices_random_false"
   ],
   "note": "Proved for KelvinHelmholtz, KelvinHelmoltzBoussinesq, the `vortex` start of Vortices and the modes of Vortices2D the mask keeps. False at Nyquist modes of Vortices2D, where one velocity component is lost (C89_vortices2D_nyquist_false), and for the `random` start of Vortices, its default (C89_vortices_random_false): the random vorticity is not divergence free and not the curl of the velocity."
  },
  {
   "property": "C90",
   "status": "partial",
   "theorems": [
    "SpectralDNS.Channel.C90_recovers",
    "SpectralDNS.Channel.C90_start",
    "SpectralDNS.Channel.C90_walls",
    "SpectralDNS.Channel.C90_conduction",
    "SpectralDNS.Channel.C90_resolved",
    "SpectralDNS.Channel.C90_uniform_noise",
    "SpectralDNS.Channel.C90_quadrature_false",
    "SpectralDNS.Channel.C90_gradient",
    "SpectralDNS.Channel.C90_convection_lower",
    "SpectralDNS.Channel.C90_kmm_rb",
    "SpectralDNS.Channel.C90_order_false",
    "SpectralDNS.Channel.C90_steady"
   ],
   "note": "Proved: the start for any noise (C90_start, C90_walls, C90_recovers), KMM_RB for both readings of bc (C90_kmm_rb), the conduction start and that it is steady for lower wall first (C90_conduction, C90_steady). False: no reading of bc makes both the start of the demo the conduction state and the gradient of KMMRK3_RB right (C90_order_false); with lower wall first KMMRK3_RB advects T + x (C90_gradient, C90_convection_lower). With Dquad = GL the start is not the conduction profile on any grid (C90_quadrature_false)."
  },
  {
   "property": "C91",
   "status": "partial",
   "theorems": [
    "SpectralDNS.RBDemo.C91_zero_divisor",
    "SpectralDNS.RBDemo.C91_samples_exact",
    "SpectralDNS.RBDemo.C91_samples_partial",
    "SpectralDNS.RBDemo.C91_not_diverging",
    "SpectralDNS.RBDemo.C91_restart_plot_false",
    "SpectralDNS.RBDemo.C91_completes",
    "SpectralDNS.RBDemo.C91_samples_false",
    "SpectralDNS.RBDemo.C91_averages",
    "SpectralDNS.RBDemo.C91_reload"
   ],
   "note": "Proved if compute_energy divides sample_stats, as with the defaults (C91_samples_partial); exact contents of the samples otherwise in C91_samples_exact. False in general: `tstep % sample_stats` lacks `== 0`, so the arrays are refreshed at all steps except the sampled ones (C91_samples_false); plot_result = 0 ends the program at the first step (C91_zero_divisor), plotting after a restart fails (C91_restart_plot_false). The statistics are proved (C91_averages, C91_reload)."
  },
  {
   "property": "C92",
   "status": "proved",
   "theorems": [
    "SpectralDNS.Periodic.C92_ns",
    "SpectralDNS.Periodic.C92_ns2d",
    "SpectralDNS.Periodic.C92_mhd",
    "SpectralDNS.Periodic.C92_bq",
    "SpectralDNS.Periodic.C92_ns_padded",
    "SpectralDNS.Periodic.C92_mhd_padded",
    "SpectralDNS.Periodic.C92_bq_padded",
    "SpectralDNS.Periodic.C92_vv"
   ],
   "note": ""
  },
  {
   "property": "C93",
   "status": "proved",
   "theorems": [
    "SpectralDNS.C93_fixed",
    "SpectralDNS.C93_ab2",
    "SpectralDNS.C93_adaptive",
    "SpectralDNS.Periodic.C93_periodic",
    "SpectralDNS.Periodic.C93_ns_rk4"
   ],
   "note": ""
  },
  {
   "property": "C94",
   "status": "proved",
   "theorems": [
    "SpectralDNS.Periodic.C94_ns",
    "SpectralDNS.Periodic.C94_ns_divergence",
    "SpectralDNS.Periodic.C94_vv",
    "SpectralDNS.Periodic.C94_ns_vv",
    "SpectralDNS.Periodic.C94_vv_divergence",
    "SpectralDNS.Periodic.C94_mhd",
    "SpectralDNS.Periodic.C94_ns2d",
    "SpectralDNS.Periodic.C94_ns2d_divergence",
    "SpectralDNS.Periodic.C94_bq"
   ],
   "note": ""
  },
  {
   "property": "C95",
   "status": "proved",
   "theorems": [
    "SpectralDNS.C95_call",
    "SpectralDNS.Solve.C95_run",
    "SpectralDNS.Solve.C95_periodic"
   ],
   "note": ""
  },
  {
   "property": "C96",
   "status": "proved",
   "theorems": [
    "SpectralDNS.NSShenfun.C96_ends",
    "SpectralDNS.NSShenfun.C96_lands",
    "SpectralDNS.NSShenfun.C96_never_ends",
    "SpectralDNS.NSShenfun.C96_refines",
    "SpectralDNS.NSShenfun.C96_real",
    "SpectralDNS.NSShenfun.C96_start",
    "SpectralDNS.NSShenfun.C96_solenoidal",
    "SpectralDNS.NSShenfun.C96_accuracy",
    "SpectralDNS.NSShenfun.C96_script"
   ],
   "note": ""
  },
  {
   "property": "C97",
   "status": "proved",
   "theorems": [
    "SpectralDNS.Coupled.C97_unique",
    "SpectralDNS.Coupled.C97_coupled",
    "SpectralDNS.Coupled.C97_coupledrk3"
   ],
   "note": ""
  },
  {
   "property": "C98",
   "status": "proved",
   "theorems": [
    "SpectralDNS.Coupled.C98_kmm",
    "SpectralDNS.Coupled.C98_kmmrk3"
   ],
   "note": ""
  },
  {
   "property": "C99",
   "status": "proved",
   "theorems": [
    "SpectralDNS.Channel.C99_kmm",
    "SpectralDNS.Channel.C99_kmmrk3",
    "SpectralDNS.Channel.C99_exists",
    "SpectralDNS.Coupled.C99_coupled",
    "SpectralDNS.Coupled.C99_coupledrk3",
    "SpectralDNS.KMMr.C99_kmmr"
   ],
   "note": ""
  },
  {
   "property": "C100",
   "status": "partial",
   "theorems": [
    "SpectralDNS.Channel.C100_kmmrk3_rb_partial",
    "SpectralDNS.Channel.C100_kmmrk3_rb_steady",
    "SpectralDNS.Channel.C100_kmmrk3_rb_only_steady",
    "SpectralDNS.Channel.C100_exists",
    "SpectralDNS.Channel.C100_kmmrk3_rb_false",
    "SpectralDNS.Channel.C100_kmm_rb_false"
   ],
   "note": "KMMRK3_RB: proved with first order (C100_kmmrk3_rb_partial), with second order if the buoyancy does not change along the solution (C100_kmmrk3_rb_steady) and only then (C100_kmmrk3_rb_only_steady); existence and uniqueness in C100_exists. Second order is false: the buoyancy is taken from the start of each substep, and on every mesh with a nonzero wavenumber some temperature gives first order only (C100_kmmrk3_rb_false). KMM_RB does not converge at all if a last Dirichlet coefficient is not zero, TC and HelmholtzSolverT have different mass matrices (C100_kmm_rb_false)."
  },
  {
   "property": "C101",
   "status": "proved",
   "theorems": [
    "SpectralDNS.Solve.C101_kmm",
    "SpectralDNS.Solve.C101_kmmrk3",
    "SpectralDNS.Solve.C101_kmmrk3_rb",
    "SpectralDNS.Solve.C101_kmm_rb",
    "SpectralDNS.Solve.C101_coupled",
    "SpectralDNS.Solve.C101_coupledrk3",
    "SpectralDNS.Solve.C101_channel_solve",
    "SpectralDNS.Solve.C101_kmmr",
    "SpectralDNS.Solve.C101_periodic",
    "SpectralDNS.Solve.C101_ab2",
    "SpectralDNS.Solve.C101_adaptive",
    "SpectralDNS.Solve.C101_ns_rk4"
   ],
   "note": ""
  },
  {
   "property": "C102",
   "status": "proved",
   "theorems": [
    "SpectralDNS.Channel.C102_kmm",
    "SpectralDNS.Channel.C102_kmm_start",
    "SpectralDNS.Channel.C102_kmmrk3",
    "SpectralDNS.Channel.C102_kmm_symmetric",
    "SpectralDNS.Channel.C102_kmmrk3_start",
    "SpectralDNS.Coupled.C102_coupled",
    "SpectralDNS.Coupled.C102_coupledrk3",
    "SpectralDNS.KMMr.C102_kmmr",
    "SpectralDNS.KMMr.C102_kmmr_symmetric"
   ],
   "note": ""
  },
  {
   "property": "C103",
   "status": "proved",
   "theorems": [
    "SpectralDNS.Solve.C103_kmmrk3",
    "SpectralDNS.Solve.C103_kmmrk3_rb",
    "SpectralDNS.Solve.C103_periodic"
   ],
   "note": ""
  },
  {
   "property": "C104",
   "status": "proved",
   "theorems": [
    "SpectralDNS.Channel.C104_kmmrk3_rb",
    "SpectralDNS.Channel.C104_kmm_rb",
    "SpectralDNS.Channel.C104_kmm_rb_start",
    "SpectralDNS.Channel.C104_kmm_rb_symmetric"
   ],
   "note": ""
  },
  {
   "property": "C105",
   "status": "proved",
   "theorems": [
    "SpectralDNS.Short.C105_flow",
    "SpectralDNS.Short.C105_energy",
    "SpectralDNS.Short.C105_initial",
    "SpectralDNS.Short.C105_start",
    "SpectralDNS.Short.C105_ends",
    "SpectralDNS.Short.C105_lands",
    "SpectralDNS.Short.C105_script"
   ],
   "note": ""
  },
  {
   "property": "C106",
   "status": "proved",
   "theorems": [
    "SpectralDNS.Channel.C106_kmm_along",
    "SpectralDNS.Channel.C106_kmm_planar",
    "SpectralDNS.Channel.C106_kmmrk3_along",
    "SpectralDNS.Channel.C106_kmmrk3_planar",
    "SpectralDNS.Channel.C106_kmm_rb",
    "SpectralDNS.Channel.C106_kmmrk3_rb",
    "SpectralDNS.Coupled.C106_coupled",
    "SpectralDNS.Coupled.C106_coupledrk3",
    "SpectralDNS.KMMr.C106_kmmr"
   ],
   "note": ""
  },
  {
   "property": "C107",
   "status": "proved",
   "theorems": [
    "SpectralDNS.Sandbox.C107_roundtrip",
    "SpectralDNS.Sandbox.C107_coefficients",
    "SpectralDNS.Sandbox.C107_derivative",
    "SpectralDNS.Sandbox.C107_scalar",
    "SpectralDNS.Sandbox.C107_fast",
    "SpectralDNS.Sandbox.C107_shen",
    "SpectralDNS.Sandbox.C107_projection",
    "SpectralDNS.Sandbox.C107_galerkin",
    "SpectralDNS.Sandbox.C107_exact",
    "SpectralDNS.Sandbox.C107_solves",
    "SpectralDNS.Sandbox.C107_printed"
   ],
   "note": ""
  },
  {
   "property": "C108",
   "status": "partial",
   "theorems": [
    "SpectralDNS.Sandbox.Neumann.C108_inverse",
    "SpectralDNS.Sandbox.Neumann.C108_scalar",
    "SpectralDNS.Sandbox.Neumann.C108_galerkin",
    "SpectralDNS.Sandbox.Neumann.C108_exact",
    "SpectralDNS.Sandbox.Neumann.C108_transform_partial",
    "SpectralDNS.Sandbox.Neumann.C108_transform_false"
   ],
   "note": "The forward transform is wrong: fastShenTransNeumann (lines 46-48) builds ck with 2 in the last place and does not use it, so the last diagonal entry of its matrix is too small and the transforms undo each other iff the last coefficient is zero (C108_transform_partial is that equivalence, C108_transform_false the printed error). Everything else is proved in full."
  },
  {
   "property": "C109",
   "status": "proved",
   "theorems": [
    "SpectralDNS.Torus.C109_ns",
    "SpectralDNS.Torus.C109_ns_rk4",
    "SpectralDNS.Torus.C109_converges",
    "SpectralDNS.Torus.C109_start",
    "SpectralDNS.Torus.C109_ns2d",
    "SpectralDNS.Torus.C109_ns2d_rk4"
   ],
   "note": ""
  },
  {
   "property": "C110",
   "status": "proved",
   "theorems": [
    "SpectralDNS.Torus.C110_mhd",
    "SpectralDNS.Torus.C110_bq",
    "SpectralDNS.Torus.C110_mhd_rk4",
    "SpectralDNS.Torus.C110_bq_rk4",
    "SpectralDNS.Torus.C110_mhd_converges",
    "SpectralDNS.Torus.C110_bq_converges"
   ],
   "note": ""
  },
  {
   "property": "C111",
   "status": "proved",
   "theorems": [
    "SpectralDNS.Torus.C111_ns",
    "SpectralDNS.Torus.C111_ns2d",
    "SpectralDNS.Torus.C111_mhd",
    "SpectralDNS.Torus.C111_bq",
    "SpectralDNS.Torus.C111_vv",
    "SpectralDNS.Torus.C111_vv_computed"
   ],
   "note": ""
  },
  {
   "property": "C112",
   "status": "proved",
   "theorems": [
    "SpectralDNS.Leg.C112_points",
    "SpectralDNS.Leg.C112_solvable",
    "SpectralDNS.Leg.C112_one",
    "SpectralDNS.Leg.C112_alternative",
    "SpectralDNS.Leg.C112_two",
    "SpectralDNS.Leg.C112_four"
   ],
   "note": ""
  },
  {
   "property": "C113",
   "status": "proved",
   "theorems": [
    "SpectralDNS.Utilities.C113_weights",
    "SpectralDNS.Utilities.C113_bounds",
    "SpectralDNS.Utilities.C113_mono",
    "SpectralDNS.Channel.OrrSommerfeld.C113_regression",
    "SpectralDNS.Channel.OrrSommerfeld.C113_growth_rate"
   ],
   "note": ""
  },
  {
   "property": "C114",
   "status": "proved",
   "theorems": [
    "SpectralDNS.KMMr.OrrSommerfeld.C114_start",
    "SpectralDNS.KMMr.OrrSommerfeld.C114_levels",
    "SpectralDNS.KMMr.OrrSommerfeld.C114_run",
    "SpectralDNS.KMMr.OrrSommerfeld.C114_source",
    "SpectralDNS.KMMr.OrrSommerfeld.C114_growth_rate",
    "SpectralDNS.KMMr.OrrSommerfeld.C114_regression"
   ],
   "note": ""
  },
  {
   "property": "C115",
   "status": "proved",
   "theorems": [
    "SpectralDNS.Laminar.C115_coupled",
    "SpectralDNS.Laminar.C115_startup",
    "SpectralDNS.Laminar.C115_printed",
    "SpectralDNS.Laminar.C115_converges"
   ],
   "note": ""
  },
  {
   "property": "C116",
   "status": "proved",
   "theorems": [
    "SpectralDNS.Leg.C116_error",
    "SpectralDNS.Leg.C116_rule",
    "SpectralDNS.Leg.C116_converges",
    "SpectralDNS.Leg.C116_smooth"
   ],
   "note": ""
  },
  {
   "property": "C117",
   "status": "proved",
   "theorems": [
    "SpectralDNS.Sandbox.C117_stable",
    "SpectralDNS.Sandbox.C117_error",
    "SpectralDNS.Sandbox.C117_converges",
    "SpectralDNS.Sandbox.C117_smooth"
   ],
   "note": ""
  },
  {
   "property": "C118",
   "status": "partial",
   "theorems": [
    "SpectralDNS.Profile.C118_report_partial",
    "SpectralDNS.Profile.C118_ordered_partial",
    "SpectralDNS.Profile.C118_match",
    "SpectralDNS.Profile.C118_once",
    "SpectralDNS.Profile.C118_blocked",
    "SpectralDNS.Profile.C118_order_false",
    "SpectralDNS.Profile.C118_missing_false"
   ],
   "note": "Proved if no two recorded functions have the same first match (C118_report_partial, C118_ordered_partial); each function is counted at most once in any case (C118_once). False otherwise: the table can mix the times of two functions of the same name (C118_order_false), and the ranks block each other if a function was called on some ranks only (C118_missing_false, C118_blocked)."
  },
  {
   "property": "C119",
   "status": "partial",
   "theorems": [
    "SpectralDNS.Profile.C119_first_partial",
    "SpectralDNS.Profile.C119_stale",
    "SpectralDNS.Profile.C119_second_false",
    "SpectralDNS.Profile.C119_empty_false"
   ],
   "note": "Proved for the first profiled run of a process with at least one step (C119_first_partial). False for later runs, which report the first again (C119_stale, C119_second_false), and for a run without steps, which raises (C119_empty_false)."
  },
  {
   "property": "C120",
   "status": "proved",
   "theorems": [
    "SpectralDNS.Torus.C120_ns",
    "SpectralDNS.Torus.C120_ns_rk4",
    "SpectralDNS.Torus.C120_converges",
    "SpectralDNS.Torus.C120_computed",
    "SpectralDNS.Torus.C120_ns2d",
    "SpectralDNS.Torus.C120_ns2d_rk4",
    "SpectralDNS.Torus.C120_ns2d_converges",
    "SpectralDNS.Torus.C120_ns2d_computed"
   ],
   "note": ""
  },
  {
   "property": "C121",
   "status": "proved",
   "theorems": [
    "SpectralDNS.Periodic.C121_ns",
    "SpectralDNS.Periodic.C121_ns2d",
    "SpectralDNS.Periodic.C121_vortex",
    "SpectralDNS.Periodic.C121_vv",
    "SpectralDNS.Periodic.C121_mhd",
    "SpectralDNS.Periodic.C121_bq",
    "SpectralDNS.Periodic.C121_taylor_green"
   ],
   "note": ""
  },
  {
   "property": "C122",
   "status": "proved",
   "theorems": [
    "SpectralDNS.Periodic.C122_ns",
    "SpectralDNS.Periodic.C122_ns2d",
    "SpectralDNS.Periodic.C122_vv",
    "SpectralDNS.Periodic.C122_mhd",
    "SpectralDNS.Periodic.C122_bq",
    "SpectralDNS.Periodic.C122_energy",
    "SpectralDNS.Periodic.C122_decay",
    "SpectralDNS.Periodic.C122_converges",
    "SpectralDNS.Periodic.C122_stays"
   ],
   "note": ""
  },
  {
   "property": "C123",
   "status": "proved",
   "theorems": [
    "SpectralDNS.Coupled.C123_coupled",
    "SpectralDNS.Coupled.C123_coupledrk3",
    "SpectralDNS.Channel.C123_kmm",
    "SpectralDNS.Channel.C123_kmmrk3",
    "SpectralDNS.Channel.C123_kmm_rb",
    "SpectralDNS.Channel.C123_kmmrk3_rb"
   ],
   "note": ""
  },
  {
   "property": "C124",
   "status": "proved",
   "theorems": [
    "SpectralDNS.ChebH.C124_points",
    "SpectralDNS.ChebH.C124_solvable",
    "SpectralDNS.ChebH.C124_one",
    "SpectralDNS.ChebH.C124_two",
    "SpectralDNS.ChebH.C124_four",
    "SpectralDNS.ChebH.C124_alternative"
   ],
   "note": ""
  },
  {
   "property": "C125",
   "status": "proved",
   "theorems": [
    "SpectralDNS.Sandbox.Nonhomo.C125_galerkin",
    "SpectralDNS.Sandbox.Nonhomo.C125_exact",
    "SpectralDNS.Sandbox.Nonhomo.C125_poisson"
   ],
   "note": ""
  },
  {
   "property": "C126",
   "status": "partial",
   "theorems": [
    "SpectralDNS.Sandbox.EvenOdd.C126_called_false",
    "SpectralDNS.Sandbox.EvenOdd.C126_galerkin_partial",
    "SpectralDNS.Sandbox.EvenOdd.C126_exact_partial"
   ],
   "note": "False as called: fk has N entries, the two systems N-2 unknowns (C126_called_false). Proved when the last two entries are removed, as the other branches of solve do."
  },
  {
   "property": "C127",
   "status": "proved",
   "theorems": [
    "SpectralDNS.Leg.Shen.C127_solvable",
    "SpectralDNS.Leg.Shen.C127_galerkin",
    "SpectralDNS.Leg.Shen.C127_exact"
   ],
   "note": ""
  },
  {
   "property": "C128",
   "status": "proved",
   "theorems": [
    "SpectralDNS.Sandbox.Sft.C128_same",
    "SpectralDNS.Sandbox.Sft.C128_exact",
    "SpectralDNS.Sandbox.Sft.C128_zeros"
   ],
   "note": ""
  },
  {
   "property": "C129",
   "status": "partial",
   "theorems": [
    "SpectralDNS.Sandbox.Neumann.Sft.C129_odd_false",
    "SpectralDNS.Sandbox.Neumann.Sft.C129_even_partial",
    "SpectralDNS.Sandbox.Neumann.Sft.C129_galerkin_partial"
   ],
   "note": "False for the sparse branch with an odd number of points, which fails (C129_odd_false). Proved for the banded branch and for even numbers of points."
  },
  {
   "property": "C130",
   "status": "partial",
   "theorems": [
    "SpectralDNS.Sandbox.Neumann.Helm.C130_galerkin_partial",
    "SpectralDNS.Sandbox.Neumann.Helm.C130_regular_partial",
    "SpectralDNS.Sandbox.Neumann.Helm.C130_named_false",
    "SpectralDNS.Sandbox.Neumann.Helm.C130_exact_partial"
   ],
   "note": "False with the quadrature names as stated: the switch for 'GC' builds the Gauss-Lobatto matrix (C130_named_false; reads 'GC' as Gauss-Chebyshev, the class of ST is not in the repository). Proved with the two quadratures exchanged, for every kx with a unique solution, which is all but finitely many (C130_regular_partial); that there are no exceptional kx is not proved."
  },
  {
   "property": "C131",
   "status": "proved",
   "theorems": [
    "SpectralDNS.Refinement.C131_rows",
    "SpectralDNS.Refinement.C131_rate",
    "SpectralDNS.Refinement.C131_exact"
   ],
   "note": ""
  }
 ]
}
{
 "C20": {
  "status": "partial",
  "note": "The property is false of the code: C20_second_solve_false. The exact behaviour of the first step after re-entry is C20_restart_step; the partial theorem characterises when it agrees."
 },
 "C23": {
  "status": "partial",
  "note": "The property is false of the code: C23_restart_false, C23_callback_false. Exact behaviour: C23_restart_exact, C23_callback_exact."
 },
 "C57": {
  "status": "partial",
  "note": "The property is false of the code: C57_rank_dependent_false; the estimate scales with sqrt(global size / size on rank 0): C57_scaling_partial."
 },
 "C31": {
  "status": "partial",
  "note": "False of the code: C31_zero_step_false (close() raises because no file was created). C31_zero_step_partial: it returns when the files exist already."
 },
 "C42": {
  "status": "partial",
  "note": "False of the code: C42_torn_false, C42_run_false, C42_append_false. C42_old_or_new_partial: every item is that of the previous state or of the current step."
 },
 "C43": {
  "status": "partial",
  "note": "Holds when the file exists at removal by rank 0 (C43_all_ranks_partial); false when only another rank's directory has it: C43_other_directory_false."
 },
 "C36": {
  "status": "partial",
  "note": "False of the code: MKM.py init_from_file leaves U_hat0 at the older level, from which the next step takes the mean flow (C36_mean_false, C36_mean_repeated), and evaluates the older convection with a stale g (C36_vortex_false). Proved when the mean flow is steady and the convection form ignores g."
 },
 "C45": {
  "status": "partial",
  "note": "Proved for RK4 (all variants), AB2 in three dimensions and the numba/pythran ForwardEuler. False for cython's AB2_2D (tests tstep == 1, C45_ab2_2D_false) and cython's ForwardEuler (wrong number of parameters, C45_forwardEuler_cython_false)."
 },
 "C46": {
  "status": "partial",
  "note": "Proved for every kernel except cython's _cross3_2D, which reads kx[i,j] and ky[i,j] in arrays of shapes (n0,1) and (1,n1): false on C-ordered arrays (C46_cross3_2D_false)."
 },
 "C49": {
  "status": "partial",
  "note": "Proved for options of a mesh parser (C49_mesh_option) and undeclared options. False for sub-parser options (C49_sub_option_false, C49_demo_false: KelvinHelmoltzBoussinesq.py's Ri and Pr are ignored) and for shared options when another mesh was updated (C49_leak_false)."
 },
 "C50": {
  "status": "partial",
  "note": "False of the code: C50_Bq_false, C50_convection_false. The entries that do exist: C50_table_partial."
 },
 "C55": {
  "status": "partial",
  "note": "For even N the rule is alias free exactly when N%3=1 (C55_two_thirds_iff), so it is false e.g. for N=32 (C55_two_thirds_false); it holds for those N (C55_two_thirds_partial). Padding by 3/2 is alias free for every N (C55_three_halves); without dealiasing it fails (C55_none_false)."
 },
 "C56": {
  "status": "partial",
  "note": "Proved for NS, and the forcing for VV. The initialization is false for VV: C56_initial_VV_false (the velocity is overwritten by that of zero vorticity, so the rescaling fails)."
 },
 "C58": {
  "status": "partial",
  "note": "False of the code: the angles are multiplied by 2j*pi, so phases are positive reals (C58_phase_exact, C58_phase_false) and the spectrum is not Ek/(4 pi k^2) (C58_spectrum_exact, C58_spectrum_false). Ek itself is the square root of the cited model spectrum (C58_shape)."
 },
 "C62": {
  "status": "partial",
  "note": "False of the code: the velocity is not recomputed after the step (C62_velocity_false, C62_coefficients_false) and the mean mode is damped (C62_mean_false). What does agree: C62_rhs_partial, C62_first_step_partial; what is computed instead: C62_rhs_exact, C62_velocity_exact."
 },
 "C65": {
  "status": "partial",
  "note": "False for KMM_RB: init_from_file stores the newest temperature in phi_hat, which no step reads, and the older one in phi_hat0, so the newest checkpointed temperature is ignored (C65_newest_ignored, C65_step_repeated, C65_kmm_rb_false); params.tstep receives the time and params.t nothing (C65_clock, C65_clock_false). Proved for the fields of KMMRK3_RB."
 },
 "C66": {
  "status": "partial",
  "note": "False: u_hat equals U_hat0 whenever ComputeRHS runs, so the average of the two is the velocity at the start of the step; C66_error gives the first-order difference, C66_centred_false a run, C66_steady_partial the case of unchanged velocity."
 },
 "C63": {
  "status": "partial",
  "note": "False for KMM_RB: TC is created without the quadrature argument, so its mass matrix is the Gauss-Lobatto one while the solver uses the Gauss one (C63_defect gives the difference for every grid); C63_quadrature_false: on four points pure conduction grows geometrically when 48 kappa dt < 2. C63_step_partial and C63_run_partial hold when the matrices agree; C63_rk3 with the default quadrature."
 },
 "C69": {
  "status": "partial",
  "note": "C69_coupled proves it for Coupled. CoupledRK3 divides the pressure gradient by a+b, so the stored pressure is one third of the pressure of the last substep (C69_rk3_partial, C69_rk3_false)."
 },
 "C73": {
  "status": "partial",
  "note": "Proved for the standard and vortex forms of KMM and for all forms of Coupled (the standard form of Coupled for fields with zero wall slope of u, which is what its space assumes). KMM's divergence and skew forms read the Dirichlet coefficients of u*u as biharmonic ones, so their wall-normal component is wrong (C73_divergence_false); the two other components are right (C73_divergence_partial)."
 },
 "C79": {
  "status": "partial",
  "note": "Proved for KMMRK3_RB with the default quadrature and, fields and walls, for both solvers. KMM_RB creates TC without the quadrature argument, so the heat equation fails for the last test function on every grid (C79_kmm_rb_false); C79_kmm_rb_partial has all equations and all other test functions."
 },
 "C80": {
  "status": "partial",
  "note": "Proved for KMMRK3_RB with the default quadrature. False for KMM_RB, which creates TC without the quadrature argument: at every resolution some perturbation of the conduction profile grows without bound once the time step is small enough (C80_kmm_rb_false). C80_kmm_rb_partial has the property if the argument were given."
 },
 "C87": {
  "status": "partial",
  "note": "The system has one solution (C87_solved) and its pressure satisfies the momentum equation for the velocities that the arrays represent in the Dirichlet basis (C87_momentum_partial). The arrays hold biharmonic coefficients, so the equation is false for the actual velocities: for every non-zero steady velocity whose last coefficient is zero (C87_momentum_false); C87_defect has the exact condition. The constant is minus the norm of the last Chebyshev polynomial times the last coefficient of the convection at every wavenumber (C87_constant), independent of the velocity."
 },
 "C89": {
  "status": "partial",
  "note": "Proved for KelvinHelmholtz, KelvinHelmoltzBoussinesq, the `vortex` start of Vortices and the modes of Vortices2D the mask keeps. False at Nyquist modes of Vortices2D, where one velocity component is lost (C89_vortices2D_nyquist_false), and for the `random` start of Vortices, its default (C89_vortices_random_false): the random vorticity is not divergence free and not the curl of the velocity."
 },
 "C90": {
  "status": "partial",
  "note": "Proved: the start for any noise (C90_start, C90_walls, C90_recovers), KMM_RB for both readings of bc (C90_kmm_rb), the conduction start and that it is steady for lower wall first (C90_conduction, C90_steady). False: no reading of bc makes both the start of the demo the conduction state and the gradient of KMMRK3_RB right (C90_order_false); with lower wall first KMMRK3_RB advects T + x (C90_gradient, C90_convection_lower). With Dquad = GL the start is not the conduction profile on any grid (C90_quadrature_false)."
 },
 "C91": {
  "status": "partial",
  "note": "Proved if compute_energy divides sample_stats, as with the defaults (C91_samples_partial); exact contents of the samples otherwise in C91_samples_exact. False in general: `tstep % sample_stats` lacks `== 0`, so the arrays are refreshed at all steps except the sampled ones (C91_samples_false); plot_result = 0 ends the program at the first step (C91_zero_divisor), plotting after a restart fails (C91_restart_plot_false). The statistics are proved (C91_averages, C91_reload)."
 },
 "C100": {
  "status": "partial",
  "note": "KMMRK3_RB: proved with first order (C100_kmmrk3_rb_partial), with second order if the buoyancy does not change along the solution (C100_kmmrk3_rb_steady) and only then (C100_kmmrk3_rb_only_steady); existence and uniqueness in C100_exists. Second order is false: the buoyancy is taken from the start of each substep, and on every mesh with a nonzero wavenumber some temperature gives first order only (C100_kmmrk3_rb_false). KMM_RB does not converge at all if a last Dirichlet coefficient is not zero, TC and HelmholtzSolverT have different mass matrices (C100_kmm_rb_false)."
 },
 "C108": {
  "status": "partial",
  "note": "The forward transform is wrong: fastShenTransNeumann (lines 46-48) builds ck with 2 in the last place and does not use it, so the last diagonal entry of its matrix is too small and the transforms undo each other iff the last coefficient is zero (C108_transform_partial is that equivalence, C108_transform_false the printed error). Everything else is proved in full."
 },
 "C118": {
  "status": "partial",
  "note": "Proved if no two recorded functions have the same first match (C118_report_partial, C118_ordered_partial); each function is counted at most once in any case (C118_once). False otherwise: the table can mix the times of two functions of the same name (C118_order_false), and the ranks block each other if a function was called on some ranks only (C118_missing_false, C118_blocked)."
 },
 "C119": {
  "status": "partial",
  "note": "Proved for the first profiled run of a process with at least one step (C119_first_partial). False for later runs, which report the first again (C119_stale, C119_second_false), and for a run without steps, which raises (C119_empty_false)."
 },
 "C126": {
  "status": "partial",
  "note": "False as called: fk has N entries, the two systems N-2 unknowns (C126_called_false). Proved when the last two entries are removed, as the other branches of solve do."
 },
 "C129": {
  "status": "partial",
  "note": "False for the sparse branch with an odd number of points, which fails (C129_odd_false). Proved for the banded branch and for even numbers of points."
 },
 "C130": {
  "status": "partial",
  "note": "False with the quadrature names as stated: the switch for 'GC' builds the Gauss-Lobatto matrix (C130_named_false; reads 'GC' as Gauss-Chebyshev, the class of ST is not in the repository). Proved with the two quadratures exchanged, for every kx with a unique solution, which is all but finitely many (C130_regular_partial); that there are no exceptional kx is not proved."
 }
}
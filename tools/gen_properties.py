#!/usr/bin/env python3
"""Writes properties.jsonl.  Kept as a script so that the list is easy to extend."""
import json, os
P = []
def p(title, statement, quantifier, why, *anchors):
    P.append(dict(id="C%02d" % (len(P)+1), title=title, statement=statement,
                  quantifier=quantifier, why_tests_cant=why, anchors=list(anchors)))

S = "spectralDNS/"
# ---------------------------------------------------------------- periodic RHS
p("Navier-Stokes right-hand side is solenoidal",
  "For the periodic velocity solver, whatever the convection form, dealiasing option and Nyquist masking, the right-hand side returned for a velocity u has at every wavenumber k a divergence k.rhs equal to k.Source - nu*|k|^2 (k.u). In particular a divergence-free velocity with a divergence-free source always gets a divergence-free right-hand side, including at k=0 where the pressure does nothing.",
  "every velocity field, every convective term (any value the transforms may produce), every wavenumber vector, every viscosity, with or without mask, any source",
  "Tests compare two integral norms of one Taylor-Green run; they cannot range over all spectral fields, all wavenumbers and all convection/dealias options.",
  S+"solvers/NS.py:add_pressure_diffusion", S+"solvers/NS.py:ComputeRHS", S+"solvers/NS.py:get_context")
p("Divergence-free velocity is preserved by every explicit integrator",
  "If the initial velocity and the source are divergence free then after any number of steps with ForwardEuler, AB2, RK4 or BS5 (fixed or adaptive, any pattern of accepted and rejected steps, any time steps) the stored velocity coefficients are still exactly divergence free (in exact arithmetic).",
  "every number of steps, every sequence of step sizes, every accept/reject history, every divergence-free start and every convection form",
  "Requires induction over unbounded histories of steps and rejections.",
  S+"maths/integrators.py:RK4", S+"maths/integrators.py:AB2", S+"maths/integrators.py:adaptiveRK", S+"solvers/NS.py:ComputeRHS")
p("project() is the orthogonal projection on divergence-free fields",
  "project(u, K, K/K2) returns a divergence-free field, changes u only along k, leaves divergence-free fields and the mean mode untouched, is idempotent, linear, self-adjoint, and never increases the modal energy.",
  "every complex vector field and every real wavenumber vector including zero",
  "Algebraic law over a continuum of inputs; the division by K2 is special cased at k=0.",
  S+"maths/maths.py:project", S+"solvers/NS.py:get_context")
p("The computed pressure makes the momentum equation hold",
  "The right-hand side is conv - i k p - nu |k|^2 u + Source with p = -i P_hat the field reported by get_pressure; that p solves the Poisson equation |k|^2 p = -i k.conv and has zero mean.",
  "every convective field, every velocity, every wavenumber",
  "Tests never look at the pressure.",
  S+"solvers/NS.py:add_pressure_diffusion", S+"solvers/NS.py:get_pressure")
p("Mean momentum is conserved",
  "With the Divergence convection form (NS and MHD) and no source the spatial mean of the velocity (and of the magnetic field) never changes, for every integrator, any number of steps and any field, divergence free or not.",
  "every initial field, every integrator and step history",
  "Invariant over unbounded histories.",
  S+"solvers/NS.py:divergence_convection", S+"solvers/MHD.py:set_Elsasser", S+"maths/integrators.py")
p("The four convection forms compute what they are documented to compute",
  "Standard returns -F(u_j du_i/dx_j), Divergence returns -i k_j F(u_i u_j), Skewed is exactly the mean of those two, Vortex returns F(u x curl u); the result never depends on the previous content of the output or work arrays. Any other name is an error; VV, NS2D and Bq2D accept Vortex only and MHD accepts Divergence only.",
  "every velocity, every transform pair, every content of the scratch arrays, every option string",
  "Needs all inputs; a wrong index pair in one of the nine products is invisible on symmetric test flows.",
  S+"solvers/NS.py:getConvection", S+"solvers/NS.py:standard_convection", S+"solvers/NS.py:divergence_convection", S+"solvers/NS.py:compute_curl", S+"solvers/NS.py:Cross")
p("Semi-discrete kinetic energy law",
  "With the Vortex convection form the nonlinear and pressure terms do no work on a divergence-free velocity: the rate of change of the kinetic energy is exactly -nu sum |k|^2 |u|^2 plus the work of the source, so with nu >= 0 and no source the energy never grows. This holds for the fully collocated transform and for any dealiasing in which the backward transform is the adjoint of the forward one.",
  "every divergence-free velocity, every grid, every adjoint transform pair",
  "Tests check one energy number at one time.",
  S+"solvers/NS.py:getConvection", S+"solvers/NS.py:ComputeRHS")
p("Velocity recovered from vorticity",
  "In the velocity-vorticity solver the recovered velocity is always divergence free with zero mean, its curl equals the vorticity whenever the vorticity is divergence free and has zero mean, and recovering the velocity from the curl of a divergence-free zero-mean velocity gives it back.",
  "every vorticity field and every wavenumber vector",
  "Algebraic round trip over all modes including k=0.",
  S+"solvers/VV.py:compute_velocity", S+"maths/cross.py:cross2")
p("NS (Vortex) and VV solvers produce the same flow",
  "Starting NS with a divergence-free zero-mean velocity and VV with its curl, and giving VV the curl of the NS source, after any number of steps of any of the fixed-step integrators (ForwardEuler, AB2, RK4, BS5_fixed) the VV vorticity is exactly the curl of the NS velocity and the recovered velocity is the NS velocity up to its mean.",
  "every initial velocity, every number of steps, every integrator, all step sizes",
  "Bisimulation of two programs over unbounded histories.",
  S+"solvers/VV.py:ComputeRHS", S+"solvers/NS.py:ComputeRHS", S+"maths/integrators.py")
p("Vorticity stays solenoidal in VV",
  "With a divergence-free source the VV right-hand side has divergence exactly -nu |k|^2 (k.w) for any w, so a divergence-free vorticity stays divergence free for any number of steps of any integrator.",
  "every vorticity field, every step history",
  "Invariant over unbounded histories.",
  S+"solvers/VV.py:ComputeRHS", S+"solvers/VV.py:getConvection")
p("Magnetic field stays divergence free",
  "In the MHD solver the magnetic right-hand side has divergence exactly -eta |k|^2 (k.b) for every product tensor, hence div B = 0 is preserved for any number of steps of any integrator, and so is div U = 0.",
  "every product tensor (any dealiasing), every step history",
  "Invariant over unbounded histories; tests check energies only.",
  S+"solvers/MHD.py:set_Elsasser", S+"solvers/MHD.py:add_pressure_diffusion", S+"solvers/MHD.py:ComputeRHS")
p("Elsasser convection equals the MHD equations",
  "The Elsasser form computes -i k_j F(u_i u_j - b_i b_j) for the velocity and i k_j F(b_j u_i - u_j b_i) for the magnetic field, for every linear forward transform; with b = 0 the solver is exactly the Divergence-form Navier-Stokes solver and b stays zero for ever; the equations are invariant under b -> -b.",
  "every pair of fields and every linear transform, every step history for the reduction",
  "Algebraic identity over all inputs and bisimulation over histories.",
  S+"solvers/MHD.py:divergenceConvection", S+"solvers/MHD.py:set_Elsasser")
p("Boussinesq solver: solenoidal velocity, correct buoyancy, reduction and equilibrium",
  "In Bq2D the velocity right-hand side is divergence free for every divergence-free velocity and every density; momentum is conv - grad p - Ri rho e_y + nu lap u and density -div(u rho) + (nu/Pr) lap rho; with rho = 0 it coincides with NS2D for ever; a fluid at rest with density depending on y only stays at rest except for its mean; the mean density is conserved.",
  "every field, every wavenumber, all step histories",
  "No test in the repository runs Bq2D at all.",
  S+"solvers/Bq2D.py:add_pressure_diffusion", S+"solvers/Bq2D.py:getConvection", S+"solvers/Bq2D.py:ComputeRHS")
p("Two-dimensional solver is the restriction of the three-dimensional one",
  "For velocities with no third component and no dependence on the third direction the 3D Vortex right-hand side equals the 2D right-hand side in the first two components and zero in the third.",
  "every planar velocity field, every linear transform pair",
  "Relates two programs on all inputs.",
  S+"solvers/NS2D.py:getConvection", S+"solvers/NS.py:getConvection", S+"maths/cross.py:cross1")
p("Real fields stay real",
  "If the spectral coefficients have Hermitian symmetry u(-k) = conj u(k) then so have the right-hand sides of NS, NS2D, VV and MHD and therefore all states reached by any integrator, when the Nyquist modes are masked (mask_nyquist, the default) or the grid sizes are odd; without the mask on even sizes this fails at the Nyquist mode.",
  "every Hermitian field, every step history",
  "Invariant over unbounded histories.",
  S+"solvers/NS.py:ComputeRHS", S+"solvers/VV.py:ComputeRHS", S+"solvers/MHD.py:ComputeRHS")
p("Masked Nyquist modes never get excited",
  "When mask_nyquist is on, a mode removed by the mask that is zero in the initial field and in the source is exactly zero after any number of steps of any integrator; with the mask the remaining modes of the convective term are unchanged.",
  "every field, mask and step history",
  "Invariant over unbounded histories.",
  S+"solvers/NS.py:ComputeRHS", S+"solvers/VV.py:ComputeRHS", S+"solvers/MHD.py:ComputeRHS")
# ---------------------------------------------------------------- integrators
p("RK4 is the classical fourth order Runge-Kutta step",
  "One call of the RK4 integrator replaces the state u by u + dt/6 (k1+2k2+2k3+k4) with the classical stages, for every right-hand side and regardless of what the work arrays contained; the returned step sizes are both dt.",
  "every right-hand side function, every state, every dt, every scratch content",
  "In-place updates of aliased arrays; all right-hand sides.",
  S+"maths/integrators.py:RK4", S+"maths/integrators.py:getintegrator")
p("Exactness of RK4/Euler/AB2 on linear decay",
  "For a linear right-hand side u' = L u, n steps of RK4 multiply u by (1 + z + z^2/2 + z^3/6 + z^4/24)^n with z = dt L, n steps of ForwardEuler by (1+z)^n; for diffusion (z = -nu |k|^2 dt, z in [-2.78,0] for RK4 and [-2,0] for ForwardEuler) this never amplifies a mode.",
  "every linear operator, every n, every dt",
  "Induction on the number of steps; all operators.",
  S+"maths/integrators.py:RK4", S+"maths/integrators.py:ForwardEuler")
p("AB2 started fresh follows the Adams-Bashforth recurrence",
  "When solve is started with tstep = 0 the AB2 integrator takes one Euler step and from then on u_{n+1} = u_n + dt_n (3/2) f(u_n) - 1/2 dt_{n-1} f(u_{n-1}), for any number of steps.",
  "every right-hand side, every number of steps, every step-size sequence",
  "History variable hidden in a closure; induction over the run.",
  S+"maths/integrators.py:AB2", S+"maths/integrators.py:getintegrator")
p("A second solve (or a restart) continues an AB2 run",
  "Calling solve again on a running context (or restarting from a checkpoint with tstep restored) with the AB2 integrator gives the same states as one uninterrupted solve.",
  "every right-hand side, every split point",
  "A restart at every possible step; tests never chain solves with AB2.",
  S+"maths/integrators.py:AB2", S+"maths/integrators.py:getintegrator", S+"__init__.py:solve")
p("The BS5 tableau has the orders the error control assumes",
  "The coefficients hard coded for BS5 satisfy all 17 order conditions up to order 5 for the propagated solution and all 8 up to order 4 for the embedded one; every row of A sums to the node, the tableau is strictly lower triangular and its last row equals the weights (first-same-as-last).",
  "the complete coefficient table and all rooted trees up to order 5",
  "Typing errors in one rational coefficient change the order but remain within the test tolerances.",
  S+"maths/integrators.py:getintegrator")
p("First-same-as-last reuse never uses a stale stage",
  "When the run starts at tstep 0 and callbacks do not modify the state, every step of the adaptive integrator (any number of rejections) produces exactly what a textbook embedded Runge-Kutta step that recomputes all stages would produce: same state, same error estimate, same step sizes.",
  "every right-hand side, every tableau with the FSAL property, all histories of accepted/rejected steps",
  "Ring-buffer indices rotate with every step and every rejection; requires an invariant over all histories.",
  S+"maths/integrators.py:adaptiveRK")
p("BS5 tolerates restarts and callbacks that modify the state",
  "The BS5 integrators give the textbook result also when solve is entered with tstep > 0 or when the update callback changes the velocity between steps.",
  "every restart step, every update callback",
  "Depends on hidden history variables.",
  S+"maths/integrators.py:adaptiveRK", "demo/Isotropic.py:update")
p("Step-size controller bounds",
  "Whatever the error estimate (including 0, infinity and NaN) each trial changes the step by a factor within [0.01, 2]; after a rejection the next trial step is at most 0.8 of the rejected one, the step cannot grow any more within the same call, and a positive step stays positive.",
  "every error estimate and every history of trials",
  "All sequences of floating point error estimates.",
  S+"maths/integrators.py:adaptiveRK")
p("Adaptive steps are accepted only within tolerance and the retry loop ends",
  "In adaptive mode the accepted trial has an error estimate that is not above one; the retry loop terminates whenever sufficiently small steps have estimate at most one, after a number of trials bounded by the logarithm of the ratio; in fixed mode the first trial is always taken and the size reported as taken is the one requested.",
  "every error functional, every initial dt",
  "Termination cannot be tested.",
  S+"maths/integrators.py:adaptiveRK")
p("All MPI ranks take the same accept/reject decision",
  "For every distribution of the data over any number of ranks, the error estimate used on each rank is the same number, so all ranks agree on every acceptance decision, never deadlock in the retry loop, and use the same next dt.",
  "every number of ranks, every distribution of the modes",
  "Tests run on one or a few ranks.",
  S+"maths/integrators.py:adaptiveRK")
# ---------------------------------------------------------------- solve loop
p("Fixed-step runs take the right number of steps",
  "For solvers without end-of-step control (channel flow) solve takes exactly the steps n with t0 + n dt <= T + 1e-12, ends at t0 + n dt, and the time step parameter is restored.",
  "every t0, T and dt > 0",
  "All combinations of start, end and step; unbounded loop.",
  "spectralDNS/__init__.py:solve", S+"solvers/spectralinit.py:end_of_tstep")
p("Periodic runs end exactly at T",
  "For the periodic solvers every run that ends after at least one step ends with |t - T| < 1e-12 and never goes beyond T + 1e-12, for fixed and adaptive integrators; dt is restored on exit.",
  "every integrator behaviour (any returned step sizes with took <= requested), every T, dt",
  "Interaction of the loop guard, the last-step adjustment and adaptive step sizes over all histories.",
  "spectralDNS/__init__.py:solve", S+"solvers/NS.py:end_of_tstep")
p("Fixed-step periodic runs terminate in a bounded number of steps",
  "With a fixed-step integrator, dt > 0 and t0 < T the periodic solve terminates after at most ceil((T-t0)/dt)+1 steps, all full dt except the last ones.",
  "every t0, T, dt",
  "Termination over a continuum of parameters.",
  "spectralDNS/__init__.py:solve", S+"solvers/NS.py:end_of_tstep")
p("Bookkeeping of solve",
  "After any run t equals the initial t plus the sum of steps actually taken, tstep has advanced by the number of steps, the dt parameter has its value from before the call, update was called exactly once per step before the file output of that step and both before the end-of-step hook.",
  "every integrator, callback and run length",
  "Holds along unbounded histories.",
  "spectralDNS/__init__.py:solve")
p("solve returns normally even when no step is needed",
  "Calling solve when T - t < dt leaves the state unchanged and returns.",
  "every context and parameter set for which the loop body is never entered",
  "Boundary case not exercised by tests.",
  "spectralDNS/__init__.py:solve", S+"h5io/HDF5File.py:HDF5File.close")
p("Splitting a run in two gives the same result",
  "For the memoryless integrators (RK4, ForwardEuler) solving to an intermediate time T1 = t0 + n dt and then to a T at least one full step later gives the same states, t, tstep, step sizes and files as solving directly to T; with less than a full step left the second call does nothing.",
  "every right-hand side, every split step",
  "Every split point.",
  "spectralDNS/__init__.py:solve", S+"maths/integrators.py:RK4")
# ---------------------------------------------------------------- channel
p("Channel velocity is discretely divergence free",
  "After every linear solve of the KMM channel solvers the velocity satisfies the discrete continuity equation at every wavenumber pair, whatever the right-hand side was; the wall-normal vorticity of the velocity returned is exactly the solved g for nonzero wavenumbers, and the wall-normal mean is zero.",
  "every right-hand side, every wavenumber pair, any derivative operator",
  "Tests check one Orr-Sommerfeld wave.",
  S+"solvers/KMM.py:solve_linear", S+"solvers/KMM.py:compute_vw", S+"solvers/KMMRK3.py:solve_linear")
p("KMM time step is Crank-Nicolson/Adams-Bashforth of the Kim-Moin-Moser equations",
  "One KMM step solves (I - nu dt/2 L) x_new = (I + nu dt/2 L) x_old + dt (3/2 N - 1/2 N_old) for the wall-normal velocity (with L the discrete biharmonic over Laplacian pair), the wall-normal vorticity and the mean velocity, for arbitrary Galerkin matrices.",
  "every set of matrices, wavenumbers, fields and parameters",
  "Coefficient mistakes of O(dt) are invisible in short test runs.",
  S+"solvers/KMM.py:get_context", S+"solvers/KMM.py:add_linear", S+"solvers/KMM.py:assembleAB", S+"solvers/KMM.py:ComputeRHS", S+"solvers/KMM.py:solve_linear")
p("RK3 channel scheme is consistent",
  "The three substeps of KMMRK3 advance by fractions 8/15, 2/15, 1/3 summing to one; implicit and explicit terms use the same fraction in each substep, the scheme has order 3 for the explicit part on linear problems, and the first substep does not use convection from earlier steps.",
  "all coefficients, every right-hand side",
  "Order and consistency are not visible in single runs.",
  S+"solvers/KMMRK3.py:get_context", S+"solvers/KMMRK3.py:ComputeRHS", S+"solvers/KMMRK3.py:integrate")
p("A channel run restarted from its checkpoint continues identically",
  "A KMM run restarted from the two stored time levels follows the same trajectory as the uninterrupted run.",
  "every step at which the run is interrupted, all fields",
  "Every interruption point; never tested.",
  "demo/MKM.py:init_from_file", S+"solvers/KMM.py:end_of_tstep", S+"solvers/KMM.py:solve_linear")
p("An RK3 channel run restarted from its checkpoint continues identically",
  "For KMMRK3 the single stored level determines the future completely: replacing all other stored arrays by arbitrary data does not change any later state.",
  "every content of the scratch arrays, every number of later steps",
  "Every interruption point and every scratch content.",
  S+"solvers/KMMRK3.py:ComputeRHS", S+"solvers/KMMRK3.py:integrate")
p("Chebyshev derivative of a Dirichlet expansion",
  "LUsolve.Mult_CTD_1D/3D applied to the coefficients of a function in Shen's Dirichlet basis returns the Chebyshev coefficients of its exact derivative.",
  "every N >= 4 and every coefficient vector",
  "Tests use one N and random data.",
  S+"shen/LUsolve.pyx:Mult_CTD_1D_ptr", S+"shen/LUsolve.pyx:Mult_CTD_3D_ptr")
p("Galerkin divergence operator",
  "LUsolve.Mult_Div_1D computes the Galerkin projection (Neumann test functions, Chebyshev weight) of du/dx + i m v + i n w for expansions in Shen's Dirichlet basis.",
  "every N >= 7 (below that the routine indexes outside its arrays), all wavenumbers and coefficient vectors",
  "Tests use one N and one wavenumber.",
  S+"shen/LUsolve.pyx:Mult_Div_1D")
# ---------------------------------------------------------------- I/O
p("Results are written exactly at the requested steps",
  "After a run the result file holds a record for step s iff s was reached by the run and s is a multiple of write_result, each record being the state at the end of that step after the update callback.",
  "every run length and interval",
  "All run lengths and intervals.",
  S+"h5io/HDF5File.py:HDF5File.update", "spectralDNS/__init__.py:solve")
p("Completed checkpoints are consistent",
  "After every completed file update the checkpoint holds, for each level, the arrays of the last step that was a multiple of checkpoint (or killed), and the stored t and tstep are those of that step.",
  "every history of steps and kill requests",
  "Histories of any length.",
  S+"h5io/HDF5File.py:HDF5File.update")
p("A crash never leaves a checkpoint mixing two steps",
  "At every crash point during output the checkpoint file contains all levels and the time stamps of one single step.",
  "every crash point in every history",
  "Crash points cannot be enumerated by tests.",
  S+"h5io/HDF5File.py:HDF5File.update")
p("Killing a run saves its state once, on all ranks together",
  "If some rank sees the kill file in a step, then all ranks write a checkpoint for that step and exit in that step; if none sees it no rank exits.",
  "every number of ranks and every visibility pattern of the file",
  "All visibility patterns over all ranks.",
  S+"h5io/HDF5File.py:HDF5File.check_if_kill", S+"h5io/HDF5File.py:HDF5File.update")
# ---------------------------------------------------------------- optimisation
p("The optimizer decorator always yields a callable",
  "For every optimisation name, precision, dimension, solver and set of compiled functions available, the decorated function either calls a compiled variant whose name matches the documented naming rule or the numpy original; it never ends up calling nothing.",
  "every set of available variants and every option value",
  "All combinations of installed modules and options.",
  S+"optimization/__init__.py:optimizer")
p("Optimised integrators compute the same step",
  "The cython, numba and pythran variants of RK4, ForwardEuler and AB2 return exactly the state the numpy version returns, for arrays of any size.",
  "every array size, state, right-hand side, tstep",
  "Loops over all sizes; only one size is tested and AB2/Euler variants are not tested at all.",
  S+"optimization/cython_integrators.in", S+"optimization/numba_module.py", S+"optimization/pythran_module.py")
p("Optimised kernels compute the same fields",
  "The cython, numba and pythran versions of cross products and of pressure/diffusion assembly agree with the numpy versions at every index for arrays of any shape, including k = 0.",
  "every shape, index and field",
  "All shapes and indices.",
  S+"optimization/cython_maths.in", S+"optimization/cython_solvers.in", S+"optimization/numba_module.py", S+"optimization/pythran_maths.py", S+"maths/cross.py")
# ---------------------------------------------------------------- config
p("Mesh parameters are consistent",
  "After any sequence of assignments of M, N and L, the mesh size seen by the solvers is the last N if N was ever given and 2^M otherwise, dx*N = L, and attribute and item access agree in double precision.",
  "every history of assignments",
  "Histories of any length.",
  S+"config.py:Params")
p("Precision handling of physical parameters",
  "In single precision the parameters nu, dt, Ri, Pr, eta read as attributes are the single precision roundings of the stored values, in double precision the stored values themselves; reading never changes the stored value.",
  "every stored value and every rounding function",
  "All values.",
  S+"config.py:Params.__getattribute__")
p("Command line beats config.update beats defaults",
  "For every option the value used is the command-line value if given, else the one given to config.update, else the built-in default.",
  "every option, solver, set of updates and command line",
  "All combinations; depends on which parser owns the option.",
  S+"config.py:update", S+"__init__.py:get_solver")
p("Every selectable solver and convection form exists",
  "Every solver name and convection name accepted by the command line parser can be run (is implemented) for the mesh it is offered for.",
  "the whole table of accepted names",
  "Tests run only some entries.",
  S+"config.py", S+"solvers")
# ---------------------------------------------------------------- utilities
p("Timer statistics",
  "After any positive number of sampled steps fastest <= every step duration <= slowest on each rank, the sum of durations is the elapsed time, and the reported pairs bound all ranks.",
  "every clock sequence, every number of ranks",
  "All sequences.",
  S+"utilities/__init__.py:Timer")
p("Channel integral does not depend on the decomposition",
  "The integral returned by utilities.dx on the root rank is the same for every distribution of the wall-normal planes over ranks, is linear in the field, and equals the exact integral when the profile is a polynomial the quadrature resolves (Gauss-Chebyshev points, and Gauss-Lobatto points with the number of points used by the solvers).",
  "every decomposition, every polynomial profile, every M",
  "All decompositions and all profiles.",
  S+"utilities/__init__.py:dx")
p("Turbulence statistics survive saving and reloading",
  "The running averages of the channel demo after sampling n fields, saving, reloading and sampling m more equal the averages of sampling n+m fields without interruption.",
  "every sequence of samples and every interruption point",
  "All sequences.",
  "demo/MKM.py:Stats")
p("Slab-decomposed transforms equal the serial transforms",
  "In the stand-alone periodic solver the sequence local FFT, transpose/alltoall, FFT gives every rank exactly its slab of the global transform, and the inverse restores the data.",
  "every number of ranks dividing the grid, every field",
  "All rank counts and fields.",
  "spectralDNS3D_short.py:fftn_mpi", "spectralDNS3D_short.py:ifftn_mpi")
p("Two-thirds rule removes aliasing",
  "Truncating to the retained wavenumbers makes the quadratic products computed on the grid free of aliasing on every retained wavenumber.",
  "every grid size N and all pairs of retained wavenumbers",
  "All N; the condition depends on N modulo 3.",
  "spectralDNS3D_short.py", "cpp/spectralDNS.cpp", S+"solvers/NS.py:get_context")
p("Isotropic turbulence demo: solenoidal start and constant energy",
  "The random initial field is divergence free for every random draw, and the forcing in the update callback restores the target energy exactly whenever the large-scale energy is positive and the small-scale energy is below target, leaving small scales untouched and the field divergence free.",
  "every random draw and every state",
  "All random draws.",
  "demo/Isotropic.py:initialize", "demo/Isotropic.py:update")

# ---------------------------------------------------------------- added while modelling
p("Adaptive step sizes do not depend on the number of ranks",
  "The same adaptive run distributed over any number of MPI ranks accepts the same steps and proposes the same step sizes as the serial run.",
  "every number of ranks, every distribution of the modes, every field",
  "All rank counts; the tests of the adaptive integrator run on whatever number of ranks is available and only compare final norms.",
  S+"maths/integrators.py:adaptiveRK")
p("Random initial field has random phases and the prescribed spectrum",
  "The initial field of the isotropic demo follows the cited recipe: independent random phases, and energy density Ek/(4 pi k^2) at every wavenumber, for every random draw.",
  "every random draw and every wavenumber",
  "The demo only looks at the field after rescaling to a target energy, which hides a wrong spectrum.",
  "demo/Isotropic.py:initialize")
p("Energy spectrum shells partition the wavenumbers",
  "The spectrum printed by the isotropic demo counts every mode with 1/2 < |k| <= Nb-1/2 in exactly one shell, the one with i+1/2 < |k| <= i+3/2.",
  "every grid, every wavenumber, every number of bins",
  "All wavenumbers including those exactly on a shell boundary.",
  "demo/Isotropic.py:spectrum")
p("Stand-alone script refines the package's solver",
  "Started from the same velocity field, spectralDNS3D_short.py computes the same coefficients after every number of steps as the package's NS solver with convection Vortex, integrator RK4 and the dealiasing array as mask; in particular its field stays divergence free.",
  "every initial field, every number of steps, every viscosity and step size",
  "Two programs compared on all inputs.",
  "spectralDNS3D_short.py", S+"solvers/NS.py:ComputeRHS", S+"maths/integrators.py:RK4")
p("Stand-alone script does not depend on the number of ranks",
  "Run on P ranks the script holds on every rank, after every number of steps, exactly the slab of the arrays of the run on one rank.",
  "every P, every grid P*n, every initial field and number of steps",
  "All rank counts.",
  "spectralDNS3D_short.py")
p("C++ program computes the iterates of the Python script",
  "cpp/spectralDNS.cpp and spectralDNS3D_short.py compute the same coefficients and velocities after every number of steps.",
  "every initial field and number of steps",
  "The C++ program prints only an energy compared with a loose tolerance.",
  "cpp/spectralDNS.cpp", "spectralDNS3D_short.py")

p("Rayleigh-Benard step solves the discrete Boussinesq equations",
  "Every step of KMM_RB, and every substep of KMMRK3_RB, solves the Crank-Nicolson equations for velocity and temperature: the wall-normal velocity is forced by the weak horizontal Laplacian of the full temperature, boundary lift included, the temperature loses the weak divergence of the convected heat and takes the plate temperatures.",
  "all states, wavenumbers, viscosities, diffusivities, step sizes, number of steps",
  "Regression tests only compare final norms of one run; a wrong buoyancy factor gives a plausible flow.",
  S+"solvers/KMM_RB.py:ComputeRHS", S+"solvers/KMM_RB.py:solve_linear", S+"solvers/KMMRK3_RB.py:ComputeRHS")
p("Conduction state is steady",
  "Without motion and with the linear temperature profile between the plates, KMM_RB and KMMRK3_RB change nothing, for any number of steps.",
  "all viscosities, diffusivities, step sizes, grids and numbers of steps",
  "All parameters; the demo always perturbs the profile.",
  S+"solvers/KMM_RB.py:integrate", S+"solvers/KMMRK3_RB.py:integrate", "demo/RayleighBenard.py:initialize")
p("Restarted Rayleigh-Benard run continues the interrupted one",
  "Reading a checkpoint with init_from_file gives the velocity, temperature, time and step number of the interrupted run, and all later steps agree with it.",
  "all runs, checkpoint steps and later steps, both solvers",
  "The demo has the call commented out; restart is never tested.",
  "demo/RayleighBenard.py:init_from_file", S+"solvers/KMM_RB.py:end_of_tstep", S+"solvers/KMM_RB.py:get_context")
p("Heat convection is centred in the middle of the step",
  "The convective term of the temperature equation of KMM_RB uses velocity and temperature at the middle of the step, as the Crank-Nicolson treatment of the rest of the equation requires for second order.",
  "all runs and steps",
  "A first-order error shows only in convergence studies.",
  S+"solvers/KMM_RB.py:DivRBConvection")

p("Coupled channel step solves the incompressible Navier-Stokes equations",
  "Every step of Coupled satisfies the Crank-Nicolson/Adams-Bashforth momentum equations with the stored pressure and exact discrete incompressibility at every wavenumber, and get_divergence reports zero; every step of CoupledRK3 is three such substeps of 8/15, 2/15 and 1/3 of the step, independent of the previous step.",
  "all states, wavenumbers, viscosities, step sizes, update callbacks, number of steps",
  "Tests compare energies of one run; incompressibility and pressure are not tested.",
  S+"solvers/Coupled.py:ComputeRHS", S+"solvers/Coupled.py:integrate", S+"solvers/CoupledRK3.py:ComputeRHS", S+"solvers/Coupled.py:get_divergence")
p("Coupled and KMM advance the same vorticity and mean flow",
  "Whenever the wall-parallel components of the convection agree, Coupled and KMM have the same wall-normal vorticity and the same mean flow after every number of steps.",
  "all pairs of runs from matching initial states, any number of steps",
  "Two programs compared on all inputs.",
  S+"solvers/Coupled.py:integrate", S+"solvers/KMM.py:solve_linear")
p("Stored pressure is the pressure",
  "The pressure stored by the coupled solvers after a step satisfies the momentum equations of the step just done.",
  "all states and step sizes, both solvers",
  "The pressure is never read by a test.",
  S+"solvers/Coupled.py:get_context", S+"solvers/CoupledRK3.py:get_context")

p("Setting and reading back the velocity",
  "Transforming a velocity field to coefficients and back returns the field exactly for every grid and no two fields share coefficients; the energy summed over the grid equals the weighted energy of the stored half spectrum; with the vorticity as primary variable the velocity of every solenoidal zero-mean field is recovered.",
  "all grids (even and odd, any dimension), all fields",
  "Tests transform one field on one grid; the treatment of the Nyquist planes is visible only for fields that contain them.",
  S+"solvers/NS.py:set_velocity", S+"solvers/NS.py:get_velocity", S+"solvers/VV.py:compute_velocity", "demo/TG.py:update")

p("Taylor-Green initial states",
  "In every box with sides 2 pi times integers the velocity that demo/TG.py starts from is solenoidal with zero mean, energy 1/8 and enstrophy 3/8, the VV solver started with its vorticity returns the same velocity, and velocity and magnetic field of demo/TGMHD.py are both solenoidal with energy 1/8.",
  "all boxes and all grids with more than two points per period",
  "The demos check an energy after several steps on one grid; the divergence of the start is never checked.",
  "demo/TG.py:initialize1", "demo/TG.py:initialize2", "demo/TGMHD.py:initialize")
p("Two-dimensional Taylor-Green vortex decays exactly",
  "Started from demo/TG2D.py's state, NS2D computes at all times a multiple of it, the multiple being the integrator's solution of y' = -2 nu y: convection is removed by the pressure for every mask and padding. With RK4 the velocity differs at every grid point from the exact solution by at most the sum of (2 nu dt)^5/100 over the steps, and the energies compared by the regression test by half of that.",
  "all grids with more than four points per period, viscosities, numbers and sizes of steps, integrators",
  "The test compares an energy for one grid and one step; the compared field has its components exchanged.",
  S+"solvers/NS2D.py:getConvection", S+"solvers/NS.py:ComputeRHS", "demo/TG2D.py:initialize", "demo/TG2D.py:regression_test")

p("Channel convection forms transform the convection of the velocity field",
  "The standard form of the channel solvers is the transform of minus (u.grad)u, the vortex form of u x curl u, the divergence form of minus div(uu) and the skew form the mean of standard and divergence form, where u is the field the coefficients stand for.",
  "all grids, box sizes, wall-normal discretisations with exact projection, all velocity coefficients",
  "The channel tests use only the default form; the derivative of the wrong basis is invisible in flows without wall-normal fluctuations.",
  S+"solvers/KMM.py:standardConvection", S+"solvers/KMM.py:divergenceConvection", S+"solvers/KMM.py:getConvection", S+"solvers/Coupled.py:getConvection")

p("Laminar channel flow",
  "Started from rest with the source of demo/LaminarChannel.py, KMM and KMMRK3 keep, with any form of the convection, a flow parallel to the walls that depends on the distance from them only; its streamwise profile follows the Crank-Nicolson scheme of the driven diffusion equation, the spanwise velocity stays zero, and the parabola (1-x^2)/(nu Re) is the steady state, towards which the error follows the undriven scheme. The demo's exact() solves u_t = nu u_xx + 2/Re and vanishes at the walls for every number of terms, tends to zero at t = 0 with the number of terms and to the parabola with time; reference() is its value at the centre for nu = 1/Re.",
  "all grids, discretisations with solvable systems, step sizes, numbers of steps, all points and numbers of terms",
  "The demo prints one error at one time on one grid; a spurious spanwise or wall-normal velocity or a wrong series term of high order is not seen.",
  "demo/LaminarChannel.py:initialize", "demo/LaminarChannel.py:set_Source", "demo/LaminarChannel.py:exact", "demo/LaminarChannel.py:reference", S+"solvers/KMM.py:solve_linear", S+"solvers/KMMRK3.py:solve_linear")

p("Channel linear systems have unique solutions",
  "For positive viscosity (diffusivity) and time step, every Helmholtz, biharmonic and mass-matrix system that KMM, KMMRK3 and the Rayleigh-Benard solvers set up with the Chebyshev bases has exactly one solution, for every wavenumber and both quadratures; matrices with derivatives do not depend on the quadrature.",
  "all numbers of wall-normal points from four, all wavenumbers, viscosities, step sizes, both quadratures",
  "A test can only solve the systems of one resolution and step size; singularity at another one is not excluded.",
  S+"solvers/KMM.py:get_context", S+"solvers/KMMRK3.py:get_context", S+"solvers/KMM_RB.py:get_context")

p("Laminar channel flow tends to the parabola",
  "From any flow parallel to the walls and independent of the wall-parallel coordinates, driven by the source of demo/LaminarChannel.py, KMM and KMMRK3 runs approach the parabola (1-x^2)/(nu Re) geometrically in the energy norm and at every point of the channel, and the spanwise velocity tends to zero, for every time step however large.",
  "all resolutions, quadratures, viscosities, step sizes, forms of the convection, initial profiles, numbers of steps",
  "Unconditional stability is a statement about all step sizes and infinitely many steps.",
  S+"solvers/KMM.py:solve_linear", S+"solvers/KMMRK3.py:solve_linear", "demo/LaminarChannel.py:set_Source")

p("Channel velocity is divergence free and at rest at the walls at every point",
  "With the Chebyshev bases the velocity held by KMM and KMMRK3 after any step from any state has zero divergence at every point of the channel, not only in the Galerkin sense, vanishes with the wall-normal derivative of its wall-normal component at both walls, and the stored g is its wall-normal vorticity as a function, also when the update callback changes the mean flow. So has the velocity held by Coupled and CoupledRK3 zero divergence at every point and the same boundary values.",
  "all resolutions, quadratures, box sizes, states, convections, sources, masks, numbers of steps, all points",
  "A test can look at the grid points only, and with rounding.",
  S+"solvers/KMM.py:solve_linear", S+"solvers/KMMRK3.py:solve_linear", S+"solvers/KMM.py:compute_vw")

p("Channel steps solve the Navier-Stokes equations weakly in physical space",
  "Every step of KMM and every substep of KMMRK3 satisfies, as functions in physical space, the equations d(Lap u)/dt = nu Lap Lap u + (d_yy + d_zz) h0 - d_x (d_y h1 + d_z h2), dg/dt = nu Lap g + d_y h2 - d_z h1 and those of the mean flow, with Crank-Nicolson for the viscous terms and the extrapolated convection h: the residuals are orthogonal to all test functions along every line across the channel.",
  "all resolutions, quadratures, box sizes, states, convections, sources, masks, numbers of steps, all lines",
  "A wrong sign or factor of one wavenumber term is invisible in flows with few modes; the regression tests use one.",
  S+"solvers/KMM.py:ComputeRHS", S+"solvers/KMM.py:solve_linear", S+"solvers/KMMRK3.py:ComputeRHS", S+"solvers/KMMRK3.py:solve_linear")

p("Rayleigh-Benard steps solve the Boussinesq equations in physical space",
  "The velocity held by KMM_RB and KMMRK3_RB after any step is divergence free at every point and zero at the walls, and the walls have exactly the prescribed temperatures; every (sub)step satisfies the Boussinesq equations as functions in physical space, the residuals being orthogonal to all test functions along every line across the layer; StandardRBConvection is the transform of (u.grad)T and the fluxes of DivRBConvection those of T u.",
  "all resolutions, box sizes, states, viscosities, diffusivities, step sizes, masks, numbers of steps, all lines; default quadrature",
  "The tests check two energies after a few steps; the boundary rows of the buoyancy or of dT/dx can be wrong without a visible change of these.",
  S+"solvers/KMM_RB.py:ComputeRHS", S+"solvers/KMM_RB.py:solve_linear", S+"solvers/KMM_RB.py:DivRBConvection", S+"solvers/KMMRK3_RB.py:ComputeRHS", S+"solvers/KMMRK3_RB.py:StandardRBConvection")

p("Heat conduction at rest tends to the linear profile for every time step",
  "From any temperature that depends on the height only, in a fluid at rest, the Rayleigh-Benard solvers keep the fluid at rest, and the temperature approaches the linear profile between the two walls geometrically in the energy norm and at every point, for every diffusivity and time step however large or small.",
  "all resolutions, box sizes, viscosities, diffusivities, step sizes, forms of the convection, initial profiles, numbers of steps; default quadrature",
  "Stability is a statement about all step sizes and infinitely many steps; a slowly growing mode near the wall is invisible in the few steps of a test.",
  S+"solvers/KMM_RB.py:get_context", S+"solvers/KMM_RB.py:ComputeRHS", S+"solvers/KMM_RB.py:solve_linear", S+"solvers/KMMRK3_RB.py:ComputeRHS", S+"solvers/KMMRK3_RB.py:integrate")

p("Quadratic invariants of the periodic solvers",
  "Along every solution of the semi-discrete equations du/dt = rhs(u) that starts divergence free: with every form of the convection the kinetic energy changes only by viscosity and the source, and with the Vortex form the helicity too; the MHD solver changes total energy, cross helicity and (for a magnetic field without mean) magnetic helicity only by viscosity and resistivity; NS2D changes the enstrophy only by viscosity; Bq2D changes kinetic energy only by viscosity and the work of buoyancy and the density variance only by diffusion. Standard, Divergence, MHD energy and cross helicity, enstrophy and density variance need the 3/2-rule with the Nyquist mask; the others hold for every padding.",
  "all meshes, box sizes, viscosities, sources, initial fields, times",
  "Energy of a short run is compared with one stored number; aliasing errors of the products at marginal resolution, or a wrong factor in a form that is not the default, go unnoticed.",
  S+"solvers/NS.py:getConvection", S+"solvers/NS2D.py:getConvection", S+"solvers/MHD.py:set_Elsasser", S+"solvers/MHD.py:ComputeRHS", S+"solvers/Bq2D.py:ComputeRHS")

p("Without aliasing the form of the convection does not change the flow",
  "With the 3/2-rule and the Nyquist mask, Standard, Divergence, Skewed and Vortex convection give the same right-hand side of the NS solver for every divergence-free velocity, hence the same flow after any run with any integrator, fixed or adaptive. The stored pressure is the same for Standard, Divergence and Skewed; with Vortex (the default) it is the pressure plus |u|^2/2 without its mean.",
  "all meshes, box sizes, viscosities, sources, velocities, integrators, tolerances, numbers and sizes of steps",
  "The tests compare each form with the same stored energy at one resolution of a smooth flow, within a tolerance that hides aliasing errors and terms that are gradients.",
  S+"solvers/NS.py:getConvection", S+"solvers/NS.py:add_pressure_diffusion", S+"solvers/NS.py:get_pressure", S+"solvers/spectralinit.py:getintegrator")

p("With the 3/2-rule the periodic solvers are Galerkin methods in physical space",
  "With the 3/2-rule and the Nyquist mask the right-hand sides of NS (every form), NS2D, MHD and Bq2D are the Galerkin projections of the Navier-Stokes, MHD and Boussinesq equations: for the real functions on the box that the coefficients stand for, with ordinary derivatives and integrals over the box, the rate of change tested with any trigonometric polynomial of the kept wavenumbers equals that of -(u.grad)u - grad p + nu Lap u + f (with (b.grad)b, induction, buoyancy, transport and diffusion of density), and the velocity is divergence free at every point. The stored pressure is p, or p + |u|^2/2 up to a constant with the vortex form. Solutions of the semi-discrete equations satisfy the weak equations at all times.",
  "all meshes, box sizes, viscosities, resistivities, sources, divergence-free states, test functions, times",
  "Tests see grid values of one smooth flow; an aliased product, a wrong scaling of one wavenumber or a gradient with a wrong sign changes energies of that flow below the tolerance.",
  S+"solvers/NS.py:get_context", S+"solvers/NS.py:getConvection", S+"solvers/NS.py:add_pressure_diffusion", S+"solvers/NS2D.py:getConvection", S+"solvers/MHD.py:ComputeRHS", S+"solvers/Bq2D.py:ComputeRHS")

p("The periodic solvers commute with the motions of the box",
  "Started from a field that is reflected in some axes, has axes of the same length and resolution exchanged, and is displaced (by any vector with the 3/2-rule, by whole grid cells on any other grid), and driven by the source moved in the same way, NS (every form of convection), NS2D, VV, MHD and Bq2D compute the moved flow after any number of steps: velocities move as vectors, the vorticity of VV takes in addition the determinant of the motion, the magnetic field may have either sign, and the density of Bq2D changes sign when the vertical axis is reflected.",
  "all meshes, grids for the products, box sizes, viscosities, states, sources, motions, integrators with fixed steps, numbers and sizes of steps",
  "One flow in one orientation is run in the tests; a term treated differently along one axis (in particular along the last, of which only half the wavenumbers are stored) changes only flows in other orientations.",
  S+"solvers/NS.py:getConvection", S+"solvers/NS.py:add_pressure_diffusion", S+"solvers/NS2D.py:getConvection", S+"solvers/VV.py:getConvection", S+"solvers/VV.py:ComputeRHS", S+"solvers/MHD.py:ComputeRHS", S+"solvers/Bq2D.py:ComputeRHS")

p("The turbulent channel demo starts divergence free and keeps its flux",
  "demo/MKM.py: whatever the random numbers, initialize produces a velocity which is divergence free at every point and zero at the walls, with g its wall-normal vorticity (KMM, KMMRK3), and a history for which the first step is an Euler step; the parabola is perturbed by an amount proportional to the distance to the nearest wall at most. utilities.dx of the streamwise velocity is the exact integral of the represented function over the channel, for any distribution over ranks. The flux control of update adds the multiple of 1-x^2 for which the flux becomes exactly the prescribed one and changes nothing else, so that after every step of KMM, KMMRK3 and Coupled the flux is the prescribed one, while the velocity stays divergence free and zero at the walls.",
  "For all mesh sizes, box sides, Gauss-Chebyshev points or an even number of Gauss-Lobatto points, prescribed fluxes, random perturbations, distributions over ranks, convection forms and numbers of steps.",
  "The demo is not run by the tests; a wrong constant (4/3, product of the sides) or transposed random factors leave a flux or a divergence that is only small.",
  "demo/MKM.py:31-79", "demo/MKM.py:90-108", S+"utilities/__init__.py:82-120", S+"solvers/KMM.py:466-516")

p("KMMr is KMM with the axes exchanged",
  "The solver KMMr, whose walls are normal to the last axis, computes with the Vortex convection exactly what KMM computes after the cyclic exchange of axes and components (x, y, z) -> (y, z, x): the convection, every step and every run with any update callback. Hence its step equations are those of KMM, its get_divergence is zero after every step, and its velocity is divergence free at every point and zero at the walls z = -1, 1. The only difference is that the convection uses wavenumbers without the Nyquist frequency.",
  "For all states, wavenumber grids, matrices, linear solvers, masks, sources, update callbacks and numbers of steps.",
  "KMMr is tested on one linear instability problem which is two-dimensional; an exchanged sign or component in the other direction would not be seen.",
  S+"solvers/KMMr.py:221-261", S+"solvers/KMMr.py:388-514")

p("The pressure of KMM balances the wall-normal momentum",
  "get_pressure of KMM solves, at each wavenumber, a system with exactly one solution; the derivative of the pressure it returns satisfies the wall-normal momentum equation nu lap((u+u0)/2) + H - (u-u0)/dt against all Chebyshev polynomials except the last, where u and u0 are the wall-normal velocities that U_hat and U_hat0 represent, and the constant of the pressure is determined by the last equation.",
  "For all mesh sizes, both quadratures, all velocities, convections, viscosities, time steps and wavenumbers.",
  "get_pressure is not called by any test, and no exact pressure is compared anywhere.",
  S+"solvers/KMM.py:178-218")

p("The Orr-Sommerfeld demo starts from a mode of the linear stability problem and measures its growth",
  "demo/OrrSommerfeld*.py: the matrices of assemble are the Orr-Sommerfeld equation tested with the biharmonic functions; B is invertible, so eigenvalues exist, and get_eigval(nx) picks one with at most nx-1 larger growth rates. For every coefficient vector and phase speed the flow of initOS is divergence free and zero at the walls, satisfies the linearised vorticity equation up to the residual of the Orr-Sommerfeld equation (orthogonal to the test functions for an eigenpair, at all times) and the full one up to the products of the perturbation. The measured energy of the perturbation grows exactly by the factor compared with. The coefficients with which KMM starts represent this flow exactly at every point; the start supplies two time levels, so already the first step is an Adams-Bashforth step of second order.",
  "all resolutions with three or more points along the stream, Reynolds numbers, wavenumbers of the matrices, coefficient vectors, phase speeds, times, amplitudes, distributions over ranks; Gauss-Chebyshev and Gauss-Lobatto points",
  "The test compares energies of order 1e-14 after a few steps with a tolerance; a mode that is not an eigenmode, an unresolved start or a wrong factor shows only after long times.",
  "demo/OrrSommerfeld.py:18-81", "demo/OrrSommerfeld.py:141-155", "demo/OrrSommerfeld_shen.py:32-117", S+"solvers/KMM.py:162-165", S+"utilities/__init__.py:82-120")

p("The Kelvin-Helmholtz and vortex demos start from divergence-free fields",
  "On every grid and for all parameters: the start of KelvinHelmholtz.py is the transform of its array without the mean and the Nyquist modes (the projection changes nothing), divergence free, without mean, and its array samples a continuous double shear layer when four divides the number of points. The start of KelvinHelmoltzBoussinesq.py is divergence free and its density equals the first velocity component. The start of Vortices2D.py is divergence free and its curl is the prescribed vorticity but for its mean, and the stored stream function is that of the velocity. The vorticity with which Vortices.py starts is divergence free and, but for its mean, the curl of the velocity the solver uses. Runs stay divergence free.",
  "all grids, box sides, velocities, thicknesses, amplitudes, densities, vorticity arrays, random arrays, integrators, numbers of steps",
  "The demos are not run by the tests except Vortices2D against stored values; a divergence of the start decays only like a heat equation and is not seen in the velocity that is printed or plotted.",
  "demo/KelvinHelmholtz.py:5-22", "demo/KelvinHelmoltzBoussinesq.py:5-17", "demo/Vortices2D.py:9-17", "demo/Vortices2D.py:59-65", "demo/Vortices.py:5-26")

p("The Rayleigh-Benard demo starts from the perturbed conduction profile, and its solvers agree with it on which wall is hot",
  "demo/RayleighBenard.py: whatever the noise, initialize leaves coefficients of a real temperature without Nyquist modes whose second transform changes nothing and which takes the wall temperatures of bc=(1, 0); any temperature of the space is recovered from its values on the grid. The noise enters multiplied by (1-x^2)/200; without noise the start is the conduction profile (1-x)/2 exactly and stays so. For both readings of bc=(1, 0) (upper or lower wall first) every formula of the solvers refers to the same wall as the space: a run of KMM_RB is a run with those wall temperatures, and the gradient in KMMRK3_RB is that of the temperature.",
  "all mesh sizes, box sides, noise arrays, both readings of bc, states, numbers of steps, linear solvers",
  "The demo is not run by the tests; with the walls exchanged the runs are as stable and smooth, only the heat flows the other way.",
  "demo/RayleighBenard.py:15-28", S+"solvers/KMM_RB.py:15-55", S+"solvers/KMM_RB.py:71-117", S+"solvers/KMMRK3_RB.py:15-55", S+"solvers/KMMRK3_RB.py:101-119")

p("The Rayleigh-Benard demo averages the fields of the sampled steps",
  "demo/RayleighBenard.py: the samples handed to the statistics in a run are the fields of exactly the steps divisible by sample_stats; the run stops if the energies at a step divisible by compute_energy exceed the limit, and otherwise goes through. The statistics file holds after each sample the averages of velocity, temperature, stresses and squared temperature over all samples so far, on any number of ranks, also when it is reloaded in between.",
  "all numbers of steps, first steps, intervals, fields, write intervals, numbers of ranks, samples",
  "The demo is not run by the tests; averages of a field one step old differ from the right ones by less than the statistical error.",
  "demo/RayleighBenard.py:32-87", "demo/RayleighBenard.py:89-177")

p("The semi-discrete equations of the periodic solvers have exactly one solution for all times",
  "For NS (each form of convection), NS2D, VV, MHD and Bq2D: from every divergence-free start without Nyquist modes, and with non-negative viscosity, resistivity and diffusivity, the system of ordinary differential equations du/dt = ComputeRHS(u) has a solution for all t >= 0, it is the only one, it stays divergence free and without Nyquist modes, and it satisfies the energy balance. The curl of the solution of NS (Vortex form) is the solution of VV.",
  "All mesh sizes, box sides, admissible starts and sources, all Richardson numbers; the Standard and Divergence forms, MHD and Bq2D with the 3/2-rule, the Vortex and Skewed forms and NS2D with any transforms that are adjoint to each other.",
  "A test follows one start over a short time; it cannot exclude blow up or a second solution.",
  S+"solvers/NS.py:ComputeRHS", S+"solvers/NS2D.py:getConvection", S+"solvers/VV.py:ComputeRHS", S+"solvers/MHD.py:ComputeRHS", S+"solvers/Bq2D.py:ComputeRHS")

p("The integrators converge to the solution with the order of their names",
  "With NS, NS2D, VV, MHD or Bq2D on any time interval on which the semi-discrete equations have a solution: after every step the state computed by ForwardEuler, RK4 and BS5_fixed differs from the solution at the time reached by at most a constant times the largest step to the power 1, 4 and 5, and by AB2 with constant step and fresh start by a constant times the square of the step. The states accepted by BS5_adaptive differ by at most a constant times the fifth power of the largest step taken.",
  "All starts, all step sequences below a threshold, all numbers of steps, all meshes, all linear transforms, all contents of work arrays.",
  "A convergence study needs an exact solution and compares a few step sizes; the suite checks one step size against a stored value.",
  S+"maths/integrators.py:adaptiveRK", S+"maths/integrators.py:RK4", S+"maths/integrators.py:ForwardEuler", S+"maths/integrators.py:AB2", S+"maths/integrators.py:getintegrator", S+"solvers/NS.py:ComputeRHS")

p("The arrays returned to the user are the velocity, its curl, its divergence and the density on the grid",
  "get_velocity, get_curl and get_divergence of NS, NS2D, VV, MHD and Bq2D (and get_rho, get_Ur, update_components) return the values at the grid points of the represented field, of its curl and of its divergence, as functions on the box differentiated in space. The velocity of VV has zero divergence and its curl is the vorticity returned by get_curl, when that is divergence free with zero mean; NS at a velocity and VV at its curl return the same arrays. After any run from a divergence-free velocity get_divergence of NS and NS2D is zero at every point. get_divergence of VV is zero whatever the state and overwrites U_hat by the curl of the vorticity.",
  "all mesh sizes, box sides, grids of the transform, coefficients, contents of the work arrays, integrators, numbers of steps",
  "Plots and the regression values use norms of these arrays, which do not see a component with the wrong sign or two exchanged derivatives; the divergence is only looked at where it is zero.",
  S+"solvers/NS.py:get_curl", S+"solvers/NS.py:get_velocity", S+"solvers/NS.py:get_divergence", S+"solvers/NS2D.py:get_curl", S+"solvers/NS2D.py:get_divergence",
  S+"solvers/VV.py:get_velocity", S+"solvers/VV.py:get_curl", S+"solvers/VV.py:get_divergence", S+"solvers/MHD.py:get_divergence", S+"solvers/Bq2D.py:get_rho")

p("Adaptive runs end unless the flow grows without bound",
  "With integrator 'BS5_adaptive' and a positive TOL, for every bound on the Fourier coefficients there are a number of trials and a number of steps such that, as long as the coefficients of the run stay below the bound, every call of the integrator ends within that number of trials, having taken at least the smaller of the requested size and a fixed positive size, and solve returns after at most that number of steps, all of them forward, with |t - T| < 1e-12. So a run that never ends has unbounded coefficients.",
  "all five periodic solvers, every mesh, source, mask, form of the convection, tolerance, distribution of the modes over ranks, start and time step",
  "A test that hangs proves nothing about the cause, and a test that ends covers one start; that retries and ever smaller steps cannot go on for ever is a statement about all runs.",
  S+"maths/integrators.py:adaptiveRK", S+"__init__.py:solve", S+"solvers/NS.py:end_of_tstep")

p("The stand-alone shenfun solver computes the Taylor-Green flow to fourth order",
  "demo/NS_shenfun.py: with a positive dt the script ends after ceil((end_time-1e-8)/dt) passes (exactly m passes and at end_time if end_time = m*dt). It starts from a divergence-free field with k = 1/8 and computes what the package's NS solver with convection Vortex and integrator RK4 computes with the same wavenumbers. The coefficients are always those of a real divergence-free field, Nyquist modes included, so k is the energy of the coefficients. The semi-discrete equations have exactly one solution through the start, its energy decays at the rate nu times the dissipation, and k differs from its energy by at most a constant times dt^4.",
  "all meshes with three or more points per direction (even or odd), viscosities, time steps and end times",
  "The script has one assertion on one number for one mesh and one time step.",
  "demo/NS_shenfun.py:17-34", "demo/NS_shenfun.py:36-56", "demo/NS_shenfun.py:58-77", "demo/NS_shenfun.py:79-82")

p("The block systems of the coupled channel solvers have exactly one solution",
  "Coupled and CoupledRK3 with the Chebyshev bases: at every wavenumber pair the system for the three velocity components and the pressure, at the mean with the first and last continuity rows replaced by conditions on the first and last pressure coefficient, has exactly one solution for every right-hand side, with positive viscosity and time step, at every resolution and with both quadratures.",
  "all resolutions, wavenumbers, right-hand sides, positive viscosities and time steps, Gauss-Chebyshev and Gauss-Lobatto points, the three substeps of CoupledRK3",
  "Spurious pressure modes make such systems singular for some resolutions or wavenumbers only; the tests solve a few systems of one size.",
  S+"solvers/Coupled.py:22-29", S+"solvers/Coupled.py:53-54", S+"solvers/Coupled.py:95-106", S+"solvers/CoupledRK3.py:29-30", S+"solvers/CoupledRK3.py:104-116")

p("The coupled channel solvers and KMM compute the same flow",
  "Coupled and KMM (and CoupledRK3 and KMMRK3), set up for the same problem with the standard or the rotational form of the convection and started from the same divergence-free velocity (and stored convection for the two-step scheme), have the same velocity at every point after every number of steps: one solves for velocity and pressure together with Dirichlet bases, the other eliminates the pressure and uses a biharmonic basis for the wall-normal velocity.",
  "all resolutions, box sides, grids of the transforms, masks, sources, positive viscosities and time steps, both quadratures, all common starts, updates of the mean flow, numbers of steps",
  "Runs of the two solvers in the tests are compared with separate stored values for a few steps; agreement of the two formulations for all flows is not tested at all.",
  S+"solvers/Coupled.py:165-337", S+"solvers/CoupledRK3.py:288-351", S+"solvers/KMM.py:233-522", S+"solvers/KMMRK3.py:68-174")

p("The channel solvers converge with second order in the time step",
  "The equations KMM, KMMr, KMMRK3, Coupled and CoupledRK3 discretise in time (Galerkin equations of the wall-normal velocity, the wall-normal vorticity and the mean flow) have, from every divergence-free velocity, a solution on some interval, and only one. On every interval on which a solution exists there are a constant and a largest time step such that a run with a smaller time step, started as in MKM.py, stays within the constant times dt^2 of the solution at all its times, in every coefficient of velocity and vorticity and at every point between the walls. KMM needs the stored convection of the first step only up to O(dt); KMMRK3 needs nothing of the stored arrays, but is of second order, too, because of Crank-Nicolson in its substeps.",
  "all resolutions, both quadratures, box sides, grids of the transforms (padded or not), masks, sources, positive viscosities, the four forms of the convection (standard and vortex for the coupled solvers), all divergence-free starts, time intervals, numbers of steps",
  "A convergence test sees the error of one flow for a few time steps; a wrong coefficient in one term shows only if that term matters for that flow.",
  S+"solvers/KMM.py:398-516", S+"solvers/KMMRK3.py:24-25", S+"solvers/KMMRK3.py:49-174", S+"solvers/KMM.py:147-155", S+"solvers/Coupled.py:282-337", S+"solvers/CoupledRK3.py:288-351", "demo/MKM.py:77-79")

p("The Rayleigh-Benard solvers converge with second order in the time step",
  "The Galerkin equations of the Boussinesq approximation which KMMRK3_RB and KMM_RB discretise in time have, from every divergence-free velocity and every temperature with the given wall values, a solution on some interval, and only one. Runs with small enough time steps stay within a constant times dt^2 of the solution at all their times, in every coefficient of velocity, vorticity and temperature and at every point between the walls.",
  "all resolutions, box sides, grids of the transforms, masks, wall temperatures, positive viscosities and conductivities, the four forms of the convection, all divergence-free starts and temperatures, time intervals, numbers of steps (quadrature GC)",
  "The tests run a few steps and compare with stored numbers; a term of lower order in time changes these numbers by a reproducible amount and is never noticed.",
  S+"solvers/KMMRK3_RB.py:44-99", S+"solvers/KMMRK3_RB.py:101-119", S+"solvers/KMM_RB.py:40-46", S+"solvers/KMM_RB.py:71-117")

p("A call of solve computes the flow",
  "solve(solver, context) from time zero with a small enough positive dt returns. With KMM, KMMr, KMMRK3, Coupled, CoupledRK3 and KMMRK3_RB it ends less than one step before T and not after T + 1e-12, having made every step of size dt and applied the user's update and the exchange of time levels once after each; the velocity it leaves and every velocity handed to the callbacks and files are, at every point between the walls, within a constant times dt^2 (KMMRK3_RB: dt) of the solution of the semi-discrete equations at the time reported. With KMM_RB, which is not accurate (C100), it takes the same steps and leaves and outputs divergence-free velocities that vanish at the walls and temperatures with the prescribed wall values. With the periodic solvers it ends at T to 1e-12 and the same holds with dt to the order of the integrator (ForwardEuler 1, AB2 2 if T is a whole number of steps, RK4 4, BS5_fixed 5, BS5_adaptive: fifth power of the largest step taken).",
  "all meshes, box sides, starts, T, small dt, output intervals, file states, callbacks that only read",
  "The demos compare one number at one T with one dt; that the last, longer or shorter step, the output calls and the exchange of time levels do not disturb the order for any T is not a finite test.",
  S+"__init__.py:solve", S+"solvers/spectralinit.py:end_of_tstep", S+"solvers/NS.py:end_of_tstep", S+"solvers/KMM.py:end_of_tstep", S+"solvers/Coupled.py:end_of_tstep", S+"maths/integrators.py:getintegrator")

p("The channel solvers commute with the motions of the channel",
  "Move the initial flow of KMM, KMMr, KMMRK3, Coupled or CoupledRK3 by a motion of the channel: exchange the walls, reflect the streamwise direction, reflect the spanwise direction, displace the flow along the walls, or any combination; move the pressure gradient accordingly (it changes sign if the streamwise direction is reflected). After any number of steps the flow of the second run is the flow of the first run moved the same way, at every point between the walls. In particular a flow with a symmetry keeps it.",
  "all resolutions, both quadratures, box sides, starts (all divergence-free ones for the coupled solvers), sources depending on the wall-normal coordinate, the four forms of the convection (standard and vortex for the coupled solvers), all displacements with the 3/2-rule and displacements by grid cells otherwise, numbers of steps (with the Nyquist mask)",
  "The test flows (Orr-Sommerfeld waves, a laminar or turbulent channel) are compared with reference numbers in one orientation; a term treated differently in the two wall-parallel directions or at the two walls changes nothing there.",
  S+"solvers/KMM.py:233-522", S+"solvers/KMMRK3.py:49-174", S+"solvers/Coupled.py:165-337", S+"solvers/CoupledRK3.py:288-351", S+"solvers/KMMr.py:84", S+"solvers/KMMr.py:399-514", "demo/MKM.py:74-79")

p("A run continued through its checkpoint file ends as the uninterrupted one",
  "Interrupt solve at any moment after a checkpoint has been written, also by the kill file. The checkpoint file then holds the state after the last step in which a checkpoint was due, with its time and number. With KMMRK3 or KMMRK3_RB, reading it with init_from_file into any fresh context and calling solve with the same dt for the time that was left ends in exactly the state in which the uninterrupted call ends, whatever the clock was set to, and hands to the callbacks and files exactly the states that the uninterrupted call hands over after that step, at the same times and with the same numbers counted from there. With the periodic solvers and RK4 or ForwardEuler the same holds with the clock of the file, if the end is more than a step away from it, including the shortened last step.",
  "all contexts, starts with consistent vorticity, step sizes, end times, checkpoint intervals, steps at which the kill file appears, contents of the fresh context, old files",
  "Tests never interrupt a run; that no array outside the file influences the continuation, wherever the run was stopped, is a statement on all stopping points.",
  S+"__init__.py:solve", S+"h5io/HDF5File.py:update", S+"solvers/KMMRK3.py:45", S+"solvers/KMMRK3_RB.py:44-48", "demo/MKM.py:init_from_file", "demo/RayleighBenard.py:init_from_file", S+"solvers/NS.py:66-70")

p("The Rayleigh-Benard solvers commute with the motions of the channel",
  "Move the initial velocity and temperature of KMM_RB or KMMRK3_RB by a motion of the channel: reflect a direction along the walls, displace along the walls, or exchange the walls together with hot and cold (a temperature T becomes Tupper + Tlower - T, seen in the mirror), or any combination. After any number of steps velocity and temperature of the second run are those of the first run moved the same way, at every point between the walls. For KMM_RB with exchanged walls the initial velocities are divergence free. In particular a layer started from rest with a symmetric temperature stays symmetric.",
  "all resolutions, both quadratures, box sides, wall temperatures, starts, sources depending on the wall-normal coordinate, the four forms of the convection, displacements with the 3/2-rule and displacements by grid cells otherwise, numbers of steps (with the Nyquist mask)",
  "The tests run one convection cell from one random temperature; that buoyancy, the wall values and the advection of temperature treat the two walls alike is never exercised.",
  S+"solvers/KMM_RB.py:63-117", S+"solvers/KMM_RB.py:156-161", S+"solvers/KMMRK3_RB.py:44-119", "demo/RayleighBenard.py:14-30")

p("The stand-alone script computes the flow to fourth order",
  "spectralDNS3D_short.py: the semi-discrete Navier-Stokes equations with the 2/3-rule on the script's grid have, from every divergence-free initial velocity without modes beyond the rule, exactly one solution for all times; its energy decays by dissipation alone. With a positive dt the script ends after ceil((T-1e-8)/dt) passes (exactly m passes and at T if T = m*dt). For small dt its coefficients, its velocity at every grid point and the energy it prints are, after every number of steps, within a constant times dt^4 of those of the solution, and the printed energy exceeds the initial one by no more than that. The script's own start is the Taylor-Green vortex, it is divergence free, within the rule and has energy 1/8.",
  "all even grid sizes (four or more for the Taylor-Green vortex), viscosities >= 0, admissible initial velocities, end times, small time steps, numbers of steps",
  "The script has one assertion on one number, for one grid, one time step and one viscosity.",
  "spectralDNS3D_short.py:38-48", "spectralDNS3D_short.py:50-62", "spectralDNS3D_short.py:64-86", "spectralDNS3D_short.py:88-110")

p("Two-dimensional channel flow and convection stay two-dimensional",
  "If the initial velocity (and temperature) of KMM, KMMRK3, KMMr, Coupled, CoupledRK3, KMM_RB or KMMRK3_RB does not vary in one of the two directions along the walls, then after any number of steps it does not vary in that direction, at any point between the walls, grid point or not. If moreover the velocity has no component in that direction, it never acquires one (in the direction of the driving force: if there is no force). KMM_RB started from rest needs the condition on the temperature alone.",
  "all resolutions, both quadratures, box sides, starts, sources depending on the wall-normal coordinate, forms of the convection, with and without the 3/2-rule, both directions, numbers of steps (with the Nyquist mask)",
  "The tests check errors of single numbers to a tolerance; a weak leak from one plane of modes into the others, which would start a spurious transition to three-dimensional flow, would pass all of them.",
  S+"solvers/KMM.py:ComputeRHS", S+"solvers/KMM.py:solve_linear", S+"solvers/KMMRK3.py:68-174", S+"solvers/KMMr.py:424-520", S+"solvers/Coupled.py:287-342", S+"solvers/CoupledRK3.py:288-356", S+"solvers/KMM_RB.py:63-161", S+"solvers/KMMRK3_RB.py:44-119")

p("The stand-alone Poisson solver is exact on what it can represent",
  "sandbox/cheb_poisson.py with N >= 4 points: the Chebyshev transform and its inverse undo each other for any numbers; from the values of a polynomial of degree below N the transform computes its Chebyshev coefficients, fastChebDerivative the values of its derivative and fastShenScalar the weighted integrals against T_k - T_(k+2). The Shen transform and its inverse undo each other (for arbitrary values they give the orthogonal projection on the polynomials vanishing at both ends). For any right-hand side f there is exactly one polynomial u of degree below N, zero at both ends, with u'' - f orthogonal to all such polynomials, and the script returns its values; if f is the second derivative of such a polynomial, or any polynomial of degree below N-2, then u'' = f and the returned values have no error. The printed error in transforms is zero. Banded and sparse storage, fast and matrix transforms give the same numbers.",
  "all numbers of points N >= 4 (N >= 1 or 3 for the transforms and the derivative), all data, all polynomials, both values of both switches",
  "The script plots the error for one function and one N; a wrong entry in the last row of a matrix, or a transform that is wrong in its last coefficient, is hidden by the spectral decay of that function.",
  "sandbox/cheb_poisson.py:34-44", "sandbox/cheb_poisson.py:46-74", "sandbox/cheb_poisson.py:76-115", "sandbox/cheb_poisson.py:118-140")

p("The stand-alone Neumann solver is exact on what it can represent",
  "sandbox/cheb_poisson_neumann.py with N >= 5 points: the inverse transform reaches exactly the polynomials of degree below N with zero slope at both ends and weighted mean zero; fastShenScalarNeumann computes the same numbers as the matrix product. For any right-hand side there is exactly one such polynomial u with u'' - f orthogonal to all of them, and the script returns its values; if f = u'' for a polynomial u with zero slope at both ends, the script returns u less its mean, which is what it compares with. The forward transform undoes the inverse one, so that the printed error in transforms is zero.",
  "all numbers of points N >= 5, all data, all polynomials, all coefficients",
  "The script runs one even function with an even N; the coefficient in which the transform is wrong is then zero by symmetry.",
  "sandbox/cheb_poisson_neumann.py:30-40", "sandbox/cheb_poisson_neumann.py:42-83", "sandbox/cheb_poisson_neumann.py:86-109")

p("The computed flow converges to the solution of the Navier-Stokes equations",
  "Given a smooth periodic solution (velocity and pressure) of the incompressible Navier-Stokes equations with a steady force on [0, T], and any power r, there is one constant, the same for all meshes, with which the velocity function of the solver NS (3/2-rule, Nyquist modes masked, any of the four forms of convection) satisfies at all times up to T: mean square error <= constant * (mean square error of the start + mean square error of the force + (1 + K^2)^-r), K being the smallest over the axes of the largest wavenumber pi*N/L. With RK4 and steps of at most H small enough, every computed velocity satisfies this up to a further constant (depending on the mesh) times H^8. Hence for every tolerance all computed velocities are within it of the true solution, if the mesh is fine enough, start and force are accurate enough and the steps are small enough. Truncated Fourier series of smooth solenoidal fields are admissible starts and forces with errors below any power of the mesh size. The first two statements hold for NS2D in two dimensions as well.",
  "all boxes, viscosities >= 0, smooth solutions, end times, meshes (also with different numbers of points per axis), forms of convection, admissible starts and forces of real fields, step sequences",
  "The tests compare one number of one flow with a stored value; a consistent solution of slightly wrong equations, or one that converges at a finite order only, passes them.",
  S+"solvers/NS.py:getConvection", S+"solvers/NS.py:add_pressure_diffusion", S+"solvers/NS.py:ComputeRHS", S+"maths/integrators.py:RK4")

p("The computed fields of MHD and Bq2D converge to the solutions of their equations",
  "Given a smooth periodic solution of the equations of incompressible magnetohydrodynamics (velocity, magnetic field, total pressure), respectively of the Boussinesq equations in the plane (velocity, density, pressure), on [0, T], and any power r, there is one constant, the same for all meshes, with which both fields of the solver MHD, respectively Bq2D (3/2-rule, Nyquist modes masked), satisfy at all times up to T: sum of the mean square errors <= constant * (sum of the mean square errors of the start + (1 + K^2)^-r), K being the smallest over the axes of the largest wavenumber pi*N/L. With RK4 and steps of at most H small enough, all computed fields satisfy this up to a further constant (depending on the mesh) times H^8. Hence for every tolerance all computed fields are within it of the true solution, if the mesh is fine enough, the start accurate enough and the steps small enough.",
  "all boxes, viscosities and resistivities >= 0, Richardson numbers, Prandtl numbers with nu/Pr >= 0, smooth solutions, end times, meshes, admissible starts of real fields, step sequences",
  "The tests compare one number of one flow with a stored value; a wrong sign or factor in the Lorentz force, the induction or the buoyancy that keeps that number, or a finite order of convergence, passes them.",
  S+"solvers/MHD.py:set_Elsasser", S+"solvers/MHD.py:add_pressure_diffusion", S+"solvers/MHD.py:ComputeRHS", S+"solvers/Bq2D.py:add_pressure_diffusion", S+"solvers/Bq2D.py:ComputeRHS", S+"maths/integrators.py:RK4")

p("Every integrator and every periodic solver follow the solutions of the differential equations",
  "The convergence to the true solution (velocity; velocity and magnetic field; velocity and density) holds for NS, NS2D, VV, MHD and Bq2D with each of the integrators: the mean square error of every computed field is at most a constant, the same for all meshes, times (errors of start and force + (1 + K^2)^-r for any r chosen in advance), plus a constant depending on the mesh times H^2 for ForwardEuler, H^4 for AB2 (equal steps h = H), H^8 for RK4, H^10 for BS5_fixed and for BS5_adaptive (H bounding the steps that the controller has taken, whatever its error estimates were). For VV, which advances the vorticity, it is the velocity that VV computes from the vorticity that satisfies this, when the vorticity is started from the curl of a mean-free velocity and the source is the curl of a mean-free force; between the steps the same holds for the exact solution of VV's ordinary differential equations.",
  "all boxes, viscosities, smooth solutions, end times, meshes, admissible starts and forces of real fields, step sequences, error estimates of the adaptive method, previous contents of the work arrays",
  "The tests compare one number of one flow with a stored value for some of the integrators; an integrator of lower order, or a wrong velocity recovered from the vorticity at some wavenumber, passes them.",
  S+"maths/integrators.py:getintegrator", S+"solvers/NS.py:ComputeRHS", S+"solvers/NS2D.py", S+"solvers/VV.py:compute_velocity", S+"solvers/VV.py:ComputeRHS", S+"solvers/MHD.py:ComputeRHS", S+"solvers/Bq2D.py:ComputeRHS")

p("The stand-alone Legendre solver computes the Galerkin approximation in one, two and four domains",
  "sandbox/nonhomogen_poisson_leg.py with n >= 1 and any points and weights that do what leggauss(n+1) promises: none of its four matrices is singular, for any kx (zero included). For any values of f at the points and any boundary values a, b there is exactly one continuous function u that is a polynomial of degree <= n on each domain, with u(-1) = a, u(1) = b, whose weak form int u'v' + kx^2 u v equals the quadrature of f v for all such v vanishing at both ends; the script returns its values at the points, in one, two and four domains. If f = -u'' + kx^2 u for a continuously differentiable u that is a polynomial of degree <= n on each domain, the returned values have no error. The second solution in one domain, which solves for the inner coefficients only and corrects two of the right-hand sides, gives the same coefficients as the first (n >= 2).",
  "all n >= 1, all kx, a, b, data, polynomials, points and weights of the rule",
  "The script checks one smooth function at n = 32 to a tolerance; a wrong entry at an interface or in the corrected right-hand sides that matters only for some boundary values, n or kx passes.",
  "sandbox/nonhomogen_poisson_leg.py:48-82", "sandbox/nonhomogen_poisson_leg.py:84-104", "sandbox/nonhomogen_poisson_leg.py:108-119", "sandbox/nonhomogen_poisson_leg.py:127-157", "sandbox/nonhomogen_poisson_leg.py:165-195")

p("The integral with which the channel demos measure errors is positive definite",
  "utilities.dx with Gauss or Gauss-Lobatto points is, for every number M of points, a quadrature whose weights are at least 1/M^2 and add up to 2. Hence for a non-negative field the integral is non-negative, each value of the field is at most M^2/vol times the integral (vol being the product of L/N over the other two axes), the integral is at most the volume times the largest value, and it is zero only for the zero field; larger fields have larger integrals, however the field is distributed over the ranks. If the assertion of regression_test of the Orr-Sommerfeld demo holds with tolerance tol, the sum of the squared errors of both velocity components is below 2 M^2 N1 N2/(L1 L2) tol^2 at every point; it holds if that sum is below tol^2/(L1 L2) at every point. The energy e0 by which the demo divides is positive for every non-zero eigenfunction resolved by the mesh and every eps other than 0, and e1/e0 is the exact growth factor for the flow of initOS.",
  "all numbers of points, both kinds of points, fields, distributions over ranks, tolerances, eigenfunctions, times",
  "The test asserts sqrt(e2) < 1e-12; with a negative weight a large error could cancel and pass, and no run would show it.",
  S+"utilities/__init__.py:dx", "demo/OrrSommerfeld.py:compute_error", "demo/OrrSommerfeld.py:regression_test", "demo/OrrSommerfeld.py:initialize")

p("The Orr-Sommerfeld demo of KMMr runs the flow of the demo of KMM with the axes exchanged",
  "demo/OrrSommerfeldr.py: the coefficients with which the run starts represent the flow of initOS at every point of the channel, which conserves mass and is zero at the walls z = -1, 1. In a new context the state is the flow at dt with its wall-normal vorticity, and the first step uses the convection of the flows at dt and at zero. After any number of steps velocity and wall-normal vorticity are those that KMM computes from the start of demo/OrrSommerfeld.py with the axes exchanged, although U_hat0 holds the flow at dt in one demo and the flow at zero in the other. The source balances the viscous force on the mean of the start for nu = 1/Re and every time step. The growth factor and the assertion of regression_test mean the same as in the other demo.",
  "all resolutions with at least three points along the first axis, eps, eigenvectors, eigenvalues, times, steps, linear solvers, convection functions, numbers of ranks",
  "test_channelz.py runs one resolution for ten steps and compares an energy; a start or a level that is wrong by an amount below the tolerance, or only for the mean flow, passes.",
  "demo/OrrSommerfeldr.py:initOS", "demo/OrrSommerfeldr.py:initialize", "demo/OrrSommerfeldr.py:set_Source", "demo/OrrSommerfeldr.py:compute_error", S+"solvers/KMMr.py:set_velocity", S+"solvers/KMMr.py:solve_linear")

p("The error that the laminar channel demo prints tends to zero, and the runs converge to the start-up flow",
  "demo/LaminarChannel.py: the start-up of the flow between two walls under a constant force has one and only one classical solution, and exact(x, Re, t, num_terms) differs from it by at most 1/(2 pi^3 num_terms^2 nu Re), at all times and points. For given nu, Re and num_terms there are a constant C and a sequence eta that decreases faster than any geometric sequence such that the error printed after any number of steps, at any column of points, with KMM, KMMRK3 (all four forms of convection), Coupled or CoupledRK3 (two forms), with either kind of points, is at most 1/(2 pi^3 num_terms^2 nu Re) + C dt^2 + eta(number of points across), for dt <= 1: the bound does not grow with time. Hence the velocity of KMM and KMMRK3 converges to the start-up flow, uniformly in time, whatever the order in which the step and the mesh are refined.",
  "all nu, Re > 0, numbers of terms, points across and along the walls, both kinds of points, steps dt <= 1, numbers of steps, linear solvers, padded meshes",
  "The demo prints the error of one resolution and step and asserts nothing; a scheme of first order, a wrong constant in the series or an error that grows slowly with time would print numbers that look small.",
  "demo/LaminarChannel.py:exact", "demo/LaminarChannel.py:update", "demo/LaminarChannel.py:regression_test", "demo/LaminarChannel.py:set_Source", S+"solvers/KMM.py:solve_linear", S+"solvers/KMMRK3.py:solve_linear", S+"solvers/Coupled.py:ComputeRHS")

p("The stand-alone Legendre solver converges for every solution with a continuous second derivative",
  "sandbox/nonhomogen_poisson_leg.py with n >= 2 in one, two and four domains: if f = -u'' + kx^2 u, a = u(-1), b = u(1), the error at every point is at most (9/2 + 2 kx^2) times the distance in the maximum norm of u'' from the polynomials of degree n - 2; the constant depends neither on n nor on the number of domains. Hence the errors tend to zero as n grows whenever u'' is continuous, and for smooth u they are at most (9/2 + 2 kx^2) max|u^(n+1)| 2^(n-1)/(n-2)!. The points and weights asked of leggauss(n+1) exist for every n: the points are the n+1 zeros of the Legendre polynomial, which are real, distinct and inside the interval, and the weights are positive.",
  "all n >= 2, kx, functions u with a second derivative, points and weights of the rule",
  "The script prints one error at n = 32; a scheme that stalls at a finite order, or whose error grows with n for less smooth data, prints a small number as well.",
  "sandbox/nonhomogen_poisson_leg.py:33-44", "sandbox/nonhomogen_poisson_leg.py:84-104", "sandbox/nonhomogen_poisson_leg.py:127-157", "sandbox/nonhomogen_poisson_leg.py:165-195")

p("The stand-alone Chebyshev Poisson solver is stable and converges for every continuous right-hand side",
  "sandbox/cheb_poisson.py with N >= 4 points, with either value of fast_transform and of banded: whatever values f it is given, no returned value exceeds 4 pi^2 times the largest of them, independently of N. For every u that vanishes at both ends, given u'' at the points, the error at every point is at most 4 pi^2 + 1/2 times the largest distance of u'' from any polynomial of degree at most N - 3. If u'' is continuous the errors at all points tend to zero as N grows; if u has N continuous derivatives and the last is at most A, the errors are at most (4 pi^2 + 1/2) A 2^(N-2)/(N-3)!.",
  "all N >= 4, data, functions with a continuous second derivative, both switches of the script",
  "The script solves one problem with one N and prints a number; a solver whose errors stop decreasing, or are amplified by a factor growing with N, is not visible in it.",
  "sandbox/cheb_poisson.py:26-34", "sandbox/cheb_poisson.py:110-140")

p("The printed profile describes the same function on all ranks",
  "create_profile: on every rank each recorded function is counted under at most one name, a name that matches it. Whatever the order in which the profilers list the same recorded functions, the call returns on all ranks, and rank 0 has, for every name that is the first match of a recorded function, the smallest and the largest own and cumulative time of that one function over the ranks.",
  "all numbers of ranks, recorded functions, orders, times",
  "The tests do not profile, and on one rank the minimum and the maximum are the same number.",
  S+"utilities/create_profile.py:create_profile")

p("The profile that solve returns describes the run",
  "With make_profile, solve reports the functions called from the end of the first step to the end of the run and nothing else, also if the process has made other runs before, and for every number of steps.",
  "all runs, numbers of steps, sequences of runs in one process, called functions",
  "No test sets make_profile; the tests that call solve repeatedly in one process do not look at the results.",
  S+"__init__.py:solve", S+"solvers/spectralinit.py:profiler", S+"utilities/create_profile.py:create_profile")

p("Without dealiasing the default NS solver and NS2D still converge to viscous Navier-Stokes flows, at spectral rate",
  "NS and NS2D with dealias='None', mask_nyquist and the vortex form of convection: products formed on the grid of the mesh itself are aliased. Given a smooth solution of the Navier-Stokes equations with nu > 0 on [0, T] and a power r, there is one constant C such that on every mesh the mean square error of the solution of the equations which the solver integrates is at most C (error of the start + error of the force + (1 + K^2)^-r), K being the smallest of the largest wavenumbers of the mesh. The states that RK4 computes have a further error of the order of the eighth power of the largest step. Hence for every tolerance the run from the truncated series of the start is within it at all steps, on all sufficiently fine meshes with sufficiently small steps.",
  "all boxes, nu > 0, times, forces, smooth solutions, meshes (any numbers of points, odd or even), starts, step sequences",
  "A run without dealiasing of a smooth flow looks right on one mesh; that the aliased products never destroy the convergence cannot be seen from any number of runs.",
  S+"solvers/NS.py:get_context", S+"solvers/NS.py:getConvection", S+"solvers/NS.py:ComputeRHS", S+"solvers/NS2D.py:getConvection", S+"maths/integrators.py:RK4")

p("Unforced periodic flows die out exponentially and forced ones stay bounded for all times",
  "Solutions of the equations that the periodic solvers integrate, in a box with sides at most l, with q = (2 pi / l)^2 and nu > 0, from divergence-free starts without Nyquist modes. NS (all four forms of convection, 3/2-rule), NS2D (3/2-rule), and for real flows without mean NS with the vortex form and VV with any padding or none: if the force has no mean, the mean velocity never changes and the energy of the rest at time t is at most exp(-nu q t) times its start plus |force|^2 / (2 (nu q)^2); without force it is at most exp(-2 nu q t) times its start. MHD: the means of velocity and magnetic field never change and the energy of the rest is at most exp(-2 min(nu, eta) q t) times its start. Bq2D: the mean density never changes and the variance of the rest is at most exp(-2 (nu/Pr) q t) times its start; for a density without mean the mean velocity never changes and the energy of the rest stays bounded for all times, for every Richardson number. The energy that demo/TG.py prints from the exact solution of its equations is at most exp(-2 nu (2 pi / l)^2 t)/8.",
  "all meshes, boxes, viscosities nu > 0 (eta > 0, Pr > 0), Richardson numbers, forces, starts, times",
  "A run shows the energy up to one final time; a slow drift of the mean or a slow accumulation of energy appears only in runs longer than any test.",
  S+"solvers/NS.py:ComputeRHS", S+"solvers/NS2D.py:ComputeRHS", S+"solvers/VV.py:ComputeRHS", S+"solvers/MHD.py:ComputeRHS", S+"solvers/Bq2D.py:ComputeRHS", "demo/TG.py:initialize1")

p("The default dealiasing computes, on the modes it keeps, exactly the run of the 3/2-rule on the mesh that stores these modes",
  "NS (all four forms of convection), NS2D, VV, MHD and Bq2D with dealias='2/3-rule' (the default), mask_nyquist on or off, and a cut-off c with 3 c < N along every axis: from states (and forces) with the same coefficients at the wavenumbers up to c, the run on the mesh N has after all steps the same coefficients there as the run of the same solver with the 3/2-rule on the mesh with 2c+1 points per direction, with every integrator with fixed steps; the modes above the cut-off have no influence on the others. Hence, for NS: the energy of the retained modes changes only by viscosity and force, they die out without force and stay bounded with one, and with RK4 the retained modes converge to the smooth solutions of the Navier-Stokes equations as the cut-off grows and the steps shrink. If the forward transform leaves out the modes above the cut-off too, a run without such modes never gets any.",
  "all meshes, cut-offs c < N/3, boxes, viscosities, forces, starts (also with modes above the cut-off), step sequences, contents of work arrays; truncation before the backward transform only or in both directions",
  "The tests compare single numbers of short runs of either rule with stored references; they never compare the two rules, which agree only between different meshes.",
  S+"config.py:192", S+"solvers/NS.py:get_context", S+"solvers/NS2D.py:get_context", S+"solvers/VV.py:get_context", S+"solvers/MHD.py:get_context", S+"solvers/Bq2D.py:get_context")

p("The channel solvers with the default dealiasing compute, on the modes they keep, the run of the 3/2-rule on the mesh that stores these modes",
  "KMM, KMMRK3, KMM_RB, KMMRK3_RB, Coupled and CoupledRK3 with dealias='2/3-rule' (the default), mask_nyquist on or off, every form of convection, and a cut-off c with 3 c < N along both periodic directions: from starts whose velocities (vorticities, temperatures) have the same coefficients at the wavenumber pairs up to c, the run on the mesh N has after any number of steps the same velocity, vorticity, temperature and pressure coefficients there as the run of the same solver with the 3/2-rule along the walls on the mesh with 2c+1 points per periodic direction and the same points between the walls. The coefficients above the cut-off, whatever they are, have no influence on the others.",
  "all numbers of points, both quadratures, cut-offs c < N/3, boxes, viscosities, diffusivities, time steps, sources, wall temperatures, starts (also with modes above the cut-off), numbers of steps; truncation before the backward transform only or in both directions",
  "The tests compare single numbers of short runs with stored references; they never compare the two rules, which agree only between different meshes.",
  S+"config.py:192", S+"solvers/KMM.py:get_context", S+"solvers/KMM.py:getConvection", S+"solvers/KMMRK3.py:get_context", S+"solvers/KMM_RB.py:get_context", S+"solvers/KMMRK3_RB.py:get_context", S+"solvers/Coupled.py:get_context", S+"solvers/CoupledRK3.py:get_context")

p("The stand-alone Chebyshev Helmholtz solver computes the collocation solution, in one, two and four domains",
  "sandbox/nonhomogen_poisson.py, for -u'' + kx^2 u = f, u(-1) = a, u(1) = b, in one domain (two ways), in two and in four domains of equal length: none of the matrices given to solve is singular, and the computed values are, at all points, those of the one function which is a polynomial of degree at most n on each domain, has a continuous derivative across the domains and the given values at -1 and 1, and satisfies the differential equation at the Chebyshev-Gauss-Lobatto points inside the domains. Hence no error if the solution is such a piecewise polynomial; the values of f at the ends of the domains have no influence.",
  "all n >= 2, kx, a, b, right-hand sides; both orders of the points, any positive weights (the documented ones for the second way in one domain)",
  "The script compares one smooth solution for one n and one kx with a tolerance; whether a matrix is singular for another n or kx, and what is computed for a solution that is not resolved, is not examined.",
  "sandbox/nonhomogen_poisson.py:92", "sandbox/nonhomogen_poisson.py:105", "sandbox/nonhomogen_poisson.py:127", "sandbox/nonhomogen_poisson.py:163", "sandbox/nonhomogen_poisson.py:214")

p("sandbox/cheb_helmholtz_sft_nonhomo.py computes the Galerkin solution with the given boundary values",
  "For every number of points N >= 4, every kx, a, b and all values f at the Gauss-Chebyshev points there is exactly one polynomial of degree below N with u(1) = a and u(-1) = b whose residual -u'' + kx^2 u - f at the points is orthogonal, for Gauss-Chebyshev quadrature, to every polynomial of degree below N that vanishes at both ends; the script's uq are its values at the points. In particular uq = u whenever f comes from a polynomial u of degree below N, and for kx = a = b = 0 it is the solution of cheb_poisson.py for -f.",
  "all N >= 4, all real kx, a, b, all data at the points, all polynomials of degree below N",
  "The script compares one function at one N, one kx and one pair of boundary values, up to a tolerance, and no longer runs: its imports do not exist.",
  "sandbox/cheb_helmholtz_sft_nonhomo.py:60", "sandbox/cheb_helmholtz_sft_nonhomo.py:82")

p("The even/odd solver of sandbox/cheb_helmholtz_sft.py returns the Galerkin solution",
  "For every number of points N >= 4, every kx and all right-hand sides, the branch sparse-even/odd of solve returns the coefficients of the one combination of the functions T_k - T_(k+2) whose residual -u'' + kx^2 u - f has zero inner product with each of these functions, for Gauss-Lobatto quadrature.",
  "all N >= 4 (even and odd), all real kx, all right-hand sides",
  "The branch is selected by editing the script and would be compared with one function for one N; the entries at the ends of the diagonals depend on the parity of N.",
  "sandbox/cheb_helmholtz_sft.py:57", "sandbox/cheb_helmholtz_sft.py:83", "sandbox/cheb_helmholtz_sft.py:161")

p("sandbox/leg_poisson.py computes the Galerkin solution",
  "For every number of Gauss points n >= 3, every kx and all values f at the points, the matrix K + kx^2 M is not singular and uq are the values at the points of the one polynomial u of degree below n with u(1) = u(-1) = 0 and integral of u'v' + kx^2 u v equal to the quadrature of f v for all v of the same kind. If f comes from such a polynomial, uq = u without error.",
  "all n >= 3, all real kx, all data at the points, all polynomials of degree below n that vanish at both ends",
  "The script compares one function for one n and one kx up to a tolerance, and no longer runs: its imports do not exist.",
  "sandbox/leg_poisson.py:52", "sandbox/leg_poisson.py:66", "sandbox/leg_poisson.py:73")

p("sandbox/cheb_poisson_sft.py returns the numbers of cheb_poisson.py although its system has two unknowns too many",
  "For every number of points N >= 4 and all values f at the Gauss-Chebyshev points, the branches banded and sparse give at every point the value that cheb_poisson.py gives, and so no error for a polynomial solution of degree below N. solve is called with N numbers and sets up N equations instead of N-2; the result relies on the last two entries of the right-hand side being zero: with zero in the last but one and any other number in the last entry, the last coefficient of the Galerkin solution is not found.",
  "all N >= 4, all data at the points, both branches, both values of the switches of cheb_poisson.py",
  "The script plots the error of one function for one N; that the surplus equations do no harm cannot be seen from it.",
  "sandbox/cheb_poisson_sft.py:42", "sandbox/cheb_poisson_sft.py:65")

p("Both branches of solve_neumann in sandbox/cheb_poisson_neumann_sft.py return the Galerkin solution",
  "For every number of points N >= 5 and all right-hand sides, solve_neumann returns, with banded and without, the coefficients of the one combination of the functions T_k - (k/(k+2))^2 T_(k+2), k = 1, ..., N-3, whose second derivative has the given inner products with these functions, for Gauss-Lobatto quadrature.",
  "all N >= 5 (even and odd), all right-hand sides, both branches",
  "The script has no tests, fixes N = 40 and the sparse branch, and stops at line 32 at a name it does not import; a run could only ever show single values of N.",
  "sandbox/cheb_poisson_neumann_sft.py:42", "sandbox/cheb_poisson_neumann_sft.py:52", "sandbox/cheb_poisson_neumann_sft.py:54")

p("The naive Neumann Helmholtz solver of sandbox/cheb_helmholtz_neumann_sft.py returns the Galerkin solution",
  "For every number of points N >= 6, every right-hand side and every wavenumber kx for which the Galerkin equations have exactly one solution, solve with solver = 'sparse' returns the coefficients of that solution of -u'' + kx^2 u = f in the span of T_k - (k/(k+2))^2 T_(k+2), k = 1, ..., N-3; the quadrature is Gauss for ST.quad = 'GC' and Gauss-Lobatto otherwise. This is so for all but finitely many kx.",
  "all N >= 6, all right-hand sides, all real kx with a unique solution, both values of ST.quad == 'GC'",
  "The script has no tests, takes the other branch (solver = 'lu'), and fixes N = 10 and kx; a run could only ever show single values.",
  "sandbox/cheb_helmholtz_neumann_sft.py:144", "sandbox/cheb_helmholtz_neumann_sft.py:150", "sandbox/cheb_helmholtz_neumann_sft.py:156")

p("demo/refinement_test.py prints the order of convergence",
  "Given the pairs (error, step) read from the runs, the loop prints one row for each run, with order 0 in the first. If the errors are C h^p up to factors between exp(-d) and exp(d), the order printed in every later row differs from p by at most 2 d / |log(h/h')|, h' the step of the run before; in particular it is p if the errors are C h^p.",
  "all lists of runs of any length, all C > 0, all real p and d, all positive steps with neighbours distinct",
  "The script has no tests, and its runs cannot have errors of known order; as it is it asks for a solver that does not exist.",
  "demo/refinement_test.py:19", "demo/refinement_test.py:27", "demo/refinement_test.py:29")

here = os.path.dirname(os.path.abspath(__file__))
with open(os.path.join(here, "..", "properties.jsonl"), "w") as f:
    for q in P:
        f.write(json.dumps(q) + "\n")
print(len(P))

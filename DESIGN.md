# Formal model of spectralDNS in Lean 4

Source: `/repo` (read only, never executed).  Lean project: `/verif/lean`.
Property list: `properties.jsonl`; status of each: `MANIFEST.json`;
mutation experiments: `seeded/LOG.jsonl`.

## 1. Layout

* `lean/Verif/Model/*.lean`   – the model, function by function, each definition citing file and lines.
* `lean/Verif/Spec/*.lean`    – small independent specifications (textbook formulas), never referring to the model.
* `lean/Verif/Lemmas/*.lean`  – helper lemmas.
* `lean/Verif/Props/*.lean`   – the property theorems (named `Cnn_…`), with an `example` after each showing that the hypotheses are met by something concrete.

Tools: `tools/gen_properties.py` writes `properties.jsonl`, `tools/gen_manifest.py` writes `MANIFEST.json` from the theorem names and
`tools/status.json`.

## 2. Modelling conventions (apply everywhere; part of the trusted reading)

* Floats are modelled by `ℝ`, `ℂ` or `ℚ`; rounding is not modelled unless the property is about it (C48 uses an
  arbitrary rounding function; C24/C25 model the special values 0, ∞ and NaN of the error estimate explicitly).
* numpy arrays are functions from an index type to values; in-place updates are functions returning the new array,
  and loops over arrays are loops/folds over the same index order as the code. Distinct arrays do not share memory.
* `forward`/`backward` transforms, linear solvers, MPI collectives, the clock, the file system and argparse are parameters or small
  models with the assumed behaviour recorded in section 5.
* Operations that raise or give NaN have the value `none`; `while True` loops take fuel and are shown to be fuel independent.
* A property that turns out to be false of the code keeps its statement. The file then has a theorem `Cnn_…_false` (a witness) and,
  where something weaker holds, `Cnn_…_partial`; `MANIFEST.json` says what is missing.

## 3. Plan per property

| id | what is modelled, how it is proved |
|----|------------------------------------|
| C01 | `NS.add_pressure_diffusion`, `ComputeRHS` on `Fin d → ι → ℂ` arrays, arbitrary `conv`; algebra per mode with the `K2 == 0` case split |
| C02 | integrators as state machines over a module `V`; invariant "state lies in a submodule closed under the RHS" by induction over steps and trials; instantiated with the solenoidal submodule using C01 |
| C03 | `project` per mode; algebra |
| C04 | `add_pressure_diffusion` also returning `P_hat`, `get_pressure` |
| C05 | zero mode of `divergence_convection` / `set_Elsasser`; same invariant theorem as C02 with "mean = constant" |
| C06 | `standard_convection`, `divergence_convection`, `compute_curl`, `Cross`, `getConvection` over abstract transforms; equality with tensor-notation specification |
| C07 | abstract adjoint pair of transforms with weights; instance by the discrete Fourier transform on a finite abelian group |
| C08 | `cross2`, `compute_velocity` per mode; vector algebra |
| C09 | simulation relation between NS and VV runs, lifted through every integrator by a generic "integrators commute with linear maps" theorem |
| C10 | as C02 for VV |
| C11 | as C02 for MHD |
| C12 | Elsasser algebra, reduction by simulation |
| C13 | Bq2D model and algebra, reduction to NS2D by simulation |
| C14 | restriction map between 3D and 2D arrays |
| C15 | Hermitian symmetry as a real submodule preserved by the RHS (with the Nyquist modes either absent or masked) |
| C16 | mask as function; invariant via C02's generic theorem |
| C17 | `RK4` with explicit array state; equality with the classical formula |
| C18 | linear RHS: polynomial in the operator, induction on steps |
| C19 | AB2 state machine (u0,u1); induction against the recurrence |
| C20 | false of the code (`u1` is re-created from `u0`): negation by witness, `_partial` for `tstep = 0` |
| C21 | tableau in `ℚ`, order conditions checked by kernel evaluation of the whole finite table; generic consequences proved for all right-hand sides that are polynomial-linear |
| C22 | ring-buffer model of `adaptiveRK`, refinement to a textbook embedded RK step |
| C23 | false of the code: witness; `_partial` states the exact condition |
| C24 | `factor` with error estimates in `{finite, ∞, NaN}`; inequalities with `Real.rpow` |
| C25 | retry loop with fuel; termination bound |
| C26 | ranks as a finite type, `reduce`/`bcast` modelled as sum/copy |
| C27–C32 | `solve` loop as state machine with fuel, integrator/callbacks as parameters; trace of events |
| C33–C37 | KMM/KMMRK3 per wavenumber pair with matrices as linear maps, solvers as right inverses |
| C38, C39 | `LUsolve.pyx` loops over `Fin`/`ℕ`-indexed arrays; refinement to Mathlib's Chebyshev polynomials |
| C40–C43 | `HDF5File` as a state machine with a list of atomic file operations; crash = prefix of the list |
| C44–C46 | dispatcher as a lookup function; loop kernels vs array formulas |
| C47–C50 | `Params` as finite map with the special methods; argparse two-level model; finite tables |
| C51–C53 | Timer/Stats as folds; `dx` as reduction followed by quadrature weights |
| C54, C55 | slab transposes as index bijections; modular arithmetic for aliasing |
| C56 | demo formulas per mode; energy identity |
| C57 | `adaptiveRK`'s estimate on several ranks: owner map, local sums divided by the local size of rank 0 |
| C58 | the random field of Isotropic.py: modulus and argument of each coefficient |
| C59 | `digitize` and the shell sums: every wavenumber in exactly one shell |
| C60, C61 | stand-alone script: same right-hand side as the NS model per mode; slab transposes are bijections, so ranks do not matter |
| C62 | C++ program: state machine with and without recomputing `U`; the exact difference |
| C63–C66 | KMM_RB and KMMRK3_RB: as C33–C37 with the temperature; mass matrices of the two quadratures; restart; centring |
| C67–C69 | Coupled and CoupledRK3: block system per wavenumber pair, comparison with KMM by a simulation relation |
| C70 | inversion of the real transform by character orthogonality, Parseval |
| C71, C72 | trigonometric polynomials: exact transforms, algebra of products, order conditions for the decay |
| C73 | channel convection: transform of sampled fields, fields are analytic, derivatives by `deriv`; a concrete five-point wall for the witness |
| C74 | laminar channel demo: parallel flow is an invariant, the mean obeys Crank-Nicolson, series solution of the demo |
| C75 | Helmholtz, biharmonic and mass systems of the Chebyshev-Galerkin channel discretisation are uniquely solvable (coercivity in the Chebyshev weight, exact quadrature) |
| C76 | laminar channel runs contract geometrically to the parabola for every time step |
| C77 | after any step the channel velocity (also of the coupled solvers) is divergence free and at rest at the walls at every point (the derivative of a biharmonic function is a Dirichlet function) |
| C78 | channel steps in physical space: residuals of the Kim-Moin-Moser equations are orthogonal to the test functions along every line |
| C79 | the Rayleigh-Benard solvers in physical space: temperature as function with wall values, fluxes, heat equation along every line |
| C80 | conduction at rest: contraction of the mean temperature profile; for KMM_RB a determinant comparison of the two mass matrices shows a growing mode |
| C81 | work of the nonlinear terms on test fields (`u`, `curl u`, `b`, vector potential, vorticity) by adjointness and a product rule on the padded grid; linear ODEs keep divergence and masked modes at zero |
| C82 | test fields on kept modes separate arrays; product rule turns divergence into convective form and `u x curl u` into convective form plus a gradient, which the projection removes; runs by `Intertwines` with the identity |
| C83 | `Spec/Torus.lean`: functions, partial derivatives, means as integrals over the box; the mean over the padded grid of a product of three functions is the integral (alias-freeness + integrals of waves); weak forms from the power lemmas of C81 |
| C84 | `Spec/Symmetry.lean`: a motion of the box and what it does to scalar and vector fields (as functions on the box); an abstract symmetry of transforms, derivatives and masked products (`Symm`) is instantiated with the half-spectrum arrays, where reflecting the last axis uses the conjugates; then simulation along the linear map through any run. Adaptive step sizes are excluded: the error estimate of BS5 sums over the stored half spectrum, so it is not the same when the last axis is exchanged with another |
| C85 | `Spec/Flux.lean`: the flux is a triple integral of the represented function; only the mean mode has a flux (integrals of waves; sums over the grid), `dx` exact by C52; arrays constant along an axis have no modes along it, so the start is divergence free mode by mode; runs by C77 |
| C86 | simulation: `St.rot` maps states of KMMr to states of KMM and commutes with every function of the step; C33, C34 and C77 are then transported back |
| C87 | the rows of the system are read off with `pressureMatrix_row` (the row of the last Chebyshev polynomial contains only the constant); the two readings of an array differ by `-(j+1)/(j+3) phi_{j+2}`, so the defect is non-zero by its degree |
| C88 | matrices: linearity of the tested equation; `B` is (up to a factor) a Helmholtz matrix, invertible by `helmholtz_bijective`; flows are `Re P(x) exp(i(y - ct))`, on which all derivatives act on `P`; energy: `Re(z)^2 = (abs z ^2 + Re z^2)/2` and the sum of the second harmonic over the grid vanishes; start: the coefficients are those of three modes, exact by `rspace_inverse` and `mass_inv` |
| C89 | the transform of an array that does not change along an axis has only modes with wavenumber zero along it (shift by one cell multiplies the transform by a root of unity); back-and-forth transform is the identity at kept modes; then C02, C08, C10, C13 |
| C90 | the transforms are inverse on the space (`rspace_inverse`, C73); the masked first transform is in the space, so the second returns it; KMM_RB: exchanging the boundary coefficients commutes with a step because the boundary rows of the buoyancy are multiplied by the wavenumber; Gauss-Lobatto: all terms of the scalar product with `phi_1` have the same sign |
| C91 | induction over the run with the invariant "after a step that is not sampled the arrays are those of the step"; statistics by projection onto those of C53 |
| C92 | the right-hand sides are polynomials of degree two in the coefficients (`Lemmas/SolverQuad`), hence locally Lipschitz: Picard-Lindelof for a cut-off equation (`Lemmas/GlobalODE`); the energy form bounds the solution, so the cut-off is never reached; restricted to the invariant subspace of admissible fields; uniqueness by Gronwall |
| C93 | Taylor expansions with uniform remainders of the exact flow and of the Runge-Kutta map, indexed by rooted trees (`Lemmas/Jet`, `Lemmas/RKLocal`), agree up to the order when the order conditions of C21 hold; discrete Gronwall inequality (`Lemmas/Converge`); C17, C19 and C22 identify the code with these methods |
| C94 | `get_velocity`, `get_curl`, `get_divergence`, `get_rho` return the values on the grid of the field and of its derivatives in space (`Model/Accessors.lean`, `Props/Accessors.lean`) |
| C95 | `Props/AdaptiveRun.lean`: with the error estimate of the code (not an arbitrary one as in C25) the retry loop ends from every state, with a lower bound on the step that is uniform on bounded sets; hence a whole adaptive `solve` ends at `T` unless the states are unbounded. Whether they can be unbounded is left open (the estimate controls the difference of two embedded methods, not the growth of the solution) |
| C96 | `Props/NSShenfun.lean`, `Lemmas/FourierHerm.lean`: with the Nyquist wavenumbers replaced by zero the wavenumber is odd at every pair of opposite modes, so Hermitian symmetry is kept without a mask; Hermitian coefficients come back from the grid including the Nyquist modes. Then C60's comparison with the package, C71 (start), C92 (one solution), C93 (order four) and a Lipschitz bound for the energy |
| C97 | `Props/CoupledCheb.lean`, `Lemmas/CoupledCheb.lean`: a homogeneous solution has a polynomial divergence which vanishes, so its wall-normal part is biharmonic; testing with biharmonic functions eliminates the pressure (integration by parts, exact for both quadratures), and C75 gives zero; the pressure follows from the tridiagonal structure of `(φ_i, T_j')` and the first and last row of `(φ_i, T_j)`. Injective, hence bijective |
| C98 | the same elimination applied to a step of the coupled solvers gives the equation KMM solves; uniqueness by C75, the convections agree by C73, induction over steps and substeps |
| C99 | the divergence free velocities are parametrised by wall-normal velocity, vorticity and mean flow, for which the Galerkin equations are an ordinary differential equation with a linear and a quadratic part (invertible mass matrices by C75); one step by C34/C35; consistency and stability of the two implicit-explicit schemes for such equations proved in `Lemmas/Imex.lean`; Coupled by C98, KMMr by C86 |
| C100 | as C99 with the temperature as a further unknown and the buoyancy as a linear term with forward Euler in each substep (`Lemmas/ImexSplit.lean`: the error of a step is (31/150) dt times the change of that term plus O(dt^3)); second order holds exactly if the buoyancy is constant along the solution; a temperature at rest for which it is not exists on every mesh; KMM_RB: the mass matrices differ in the last diagonal entry (C63) |
| C101 | the run of `solve` with a channel solver is an iterate of end-of-step after callback after step (`Props/SolveChannel.lean`), with a periodic solver the list of calls of the integrator, whose step sizes are bounded (`Props/SolvePeriodic.lean`); then C99, C100, C93 |
| C102 | the Galerkin matrices, the projections and the forward transform along the wall respect parity (`Lemmas/ChannelSymmetry.lean`), with the motions of the wall-parallel planes (C84) also the convection (`ChannelSymmetryConv.lean`) and by uniqueness the linear solvers (`ChannelSymmetryStep.lean`, `ChannelSymmetryRun.lean`); induction over the steps; the coupled solvers by C98; KMMr by C86, its other wavenumbers `Kx` in the convection (zero for the Nyquist modes) do not matter because the mask keeps these modes zero |
| C103 | the file holds one of the states of the run (C41); the state read from it has the same next step (C37, C65), so the second call is the rest of the first one, step by step (`Props/SolveRestart.lean`); periodic solvers: the loop depends on parameters and context only (`Props/SolveRestartPeriodic.lean`) |
| C104 | as C102, with the buoyancy as an additional force in the wall-normal equation; the temperature is split into its Dirichlet part, which moves like the wall-normal velocity, and the linear part carried by the mean mode (`Lemmas/RBSymmetry.lean`). KMMRK3_RB advects with the gradient, where a constant drops out; KMM_RB differentiates the products, where the constant `bc.1 + bc.2` multiplies the discrete divergence of the velocity, which is zero after the first step (C33) and is assumed to be zero at the start |
| C105 | the script's transforms are sums over waves (`Lemmas/ShortWaves.lean`), linear and adjoint to each other, so C92 gives the solution of the equations written in `Spec/ScriptFlow.lean` and the convergence of Runge-Kutta methods on quadratic fields (`Lemmas/Converge.lean`) the error; the printed energy by Parseval's inequality; the loop by induction on the passes |
| C106 | a displacement by one cell of the mesh leaves a field of the solver in place iff the field does not vary in that direction at all (average over the cells: only modes whose wavenumber is a multiple of the number of points survive, and by resolution that number is zero; `Lemmas/ChannelPlanar.lean`); a field of this kind is odd under the reflection iff it is zero; C102 and C104 for these two motions |
| C107 | orthogonality of the Chebyshev polynomials at the Gauss points gives one round trip, interpolation the other; `2T_k = U_k - U_{k-2}` added up along the downward loop gives the derivative; the banded and the sparse matrix have the entries of the Galerkin stiffness matrix (`entry_stiff`), which is definite, so the solution is unique; polynomials vanishing at the ends are combinations of the basis |
| C108 | integrals of `U_m T_i` and `U_m' T_i` give the closed formula of line 96, so the triangular matrix of `solve_neumann` is the Galerkin matrix; subtracting the mean does not change the right-hand side; polynomials with zero slope at the ends and mean zero are combinations of the basis; the matrix of the forward transform is the Gauss, not the Gauss-Lobatto, mass matrix, which differs in the last entry |
| C109 | smooth solutions are specified pointwise in `Spec/Classical.lean`, without reference to the solver; decay of their Fourier coefficients by integration by parts (`Lemmas/BoxFourier.lean`), the series converges to the function (`BoxSeries.lean`), so the truncation error is below any power of the mesh size (`Projection.lean`); the solver's equations are the weak equations on the retained modes (C83), hence an energy estimate for the difference from the truncated solution (`EnergyError.lean`, `GalerkinError.lean`) and Gronwall's inequality (`GalerkinTime.lean`); real fields stay real by uniqueness; time steps by C93. The constants are not computed; the start is a hypothesis (coefficients of a real solenoidal field without Nyquist modes), interpolation of the start at the grid points is not analysed |
| C110 | as C109 with two coupled fields: the pointwise equations are in `Spec/Classical.lean`, the errors of the coupling terms cancel in pairs up to bounded multiples of the errors themselves (`Lemmas/TransportError.lean`, `CoupledError.lean`, `CoupledTime.lean`, `CoupledBq.lean`); solutions of the solver's equations stay real, solenoidal and unmasked because a quadratic equation cannot leave an invariant subspace (`InvariantODE.lean`); examples: a decaying Alfven wave, sinking columns |
| C111 | `FollowsAll` collects the three kinds of runs (fixed steps, AB2 with equal steps, the adaptive pair); C93 gives the distance of the runs to the exact solution of the semi-discrete equations and C109, C110 that solution's distance to the differential equations. VV: its semi-discrete solution is the curl of that of NS (C92), and `velocityHat` recovers the velocity (C08), linearly |
| C112 | the weak form and piecewise polynomials are in `Spec/LegPoisson.lean`, in physical coordinates and for any number of domains; `Lemmas/Legendre.lean` derives the derivative and orthogonality formulas from the recurrence, `Lemmas/LegPoisson.lean` shows that the glued system is the weak form and that its homogeneous system has the solution zero only; each matrix of the script has the rows of the glued one; example: three Gauss points |
| C113 | the weights are `2/M` times cosine sums with the coefficients `2/(1-k^2)`, bounded below because `1 = 2/3 + 2/15 + 2/35 + ...` telescopes; bounds at the points and of the assertion follow; the energy of the mode is positive because a polynomial with fewer zeros than points is not zero at all of them |
| C114 | `Vel.rot` maps the start of OrrSommerfeldr.py to that of OrrSommerfeld.py; the two states differ in `U_hat0` only, of which the step uses the mean, which is the parabola at all times; C86, C88, C74 and C113 are transported |
| C115 | `Spec/StartUp.lean` states the initial boundary value problem; maximum principle (`Lemmas/HeatMax.lean`) for uniqueness and for the cutoff, the infinite series for existence; Crank-Nicolson is a contraction in the norm of the quadrature (`cn_stable`), which sums the local errors over all time with the decay of the modes; the modes `cos(l x)` are replaced by polynomials that vanish at the walls (`Heat.approx`), Taylor's remainder of which beats every geometric sequence |
| C116 | Cea's argument with the polynomial whose second derivative is the given one: it is a Galerkin approximation of its own data (C112), the difference is bounded by the data uniformly (`galerkin_bound`, energy and Poincare inequality on the glued pieces); Weierstrass and Taylor for the distance; Gauss quadrature constructed from the zeros of the Legendre polynomial (`Lemmas/GaussRule.lean`) |
| C117 | the approximation as its own test function (C107): the weighted integral of `-u'' u` bounds that of `(1-x^2) u'^2`, which is the square of the derivative with respect to the angle (`gradient_bound`), hence the values (`value_bound`); stability in the maximum norm, uniformly in the number of points; then as C116 |
| C118 | the scan with deletion characterised by the first matching name (`scan_mem`), hence independent of the order (`scan_perm`); collective calls paired by their number; witnesses for two functions of one name and for a function missing on a rank |
| C119 | the profiler as state of the process: a second run is never recorded because `getstats()` is not empty |
| C120 | `gridCtx` is the context with one grid; the work of the vortex form on the error is compared with that on the padded grid, for which C109 has the estimate. Both are means over grid points of pointwise products (`gridMean`), exact for products of two functions, so the aliasing defect is bounded by the error, half of the dissipation on either grid and the pointwise truncation error of `u x curl u` (`Lemmas/GridError.lean`); the dissipation absorbs it, which is why `nu > 0` is needed. In NS2D the vorticity is a scalar, otherwise the proof is the same (`Lemmas/GridError2D.lean`). The skewed form and the other two forms (which do not conserve energy on one grid) are not claimed; the 2/3-rule is in C122 |
| C121 | `Spec/Decay.lean` removes the coefficients at zero wavenumber; `Props/Decay.lean`: along the solutions of C92 the convection has no mean (for three forms because they equal the conservative form without aliasing, C82), so only the force moves the mean; Poincare's inequality (a nonzero wavenumber is at least `2 pi / l`) bounds the energy of the rest by the dissipation, Young's inequality the work of the force; `y' <= e - a y` bounds `y`. About the exact solutions of the semi-discrete equations; time stepping adds the errors of C93 on bounded intervals |
| C122 | `Model/DealiasDirect.lean` is the space with `dealias_direct`; `Spec/Retained.lean` compares arrays of two meshes at equal wavenumber vectors. `Lemmas/Retained.lean`: a product of two truncated fields has wavenumbers up to `2c`; on the mesh `N > 3c` they alias only to wavenumbers above `c`, so its retained coefficients are those of the exact product, as on the padded mesh. All right-hand sides are built from products, multiplications by wavenumbers and the mask, so restriction to the retained modes carries one to the other, and with it every run (`run_map`) and every flow. Energy, decay and convergence are C92, C121 and C109 on the mesh `2c+1`; the energy of the modes above the cut-off is not bounded by them |
| C123 | `Model/DealiasWall.lean` is the context with the transforms along the walls as a parameter, `directSpace` for the 2/3-rule. `Lemmas/RetainedWall.lean`: the convection consists of forward transforms of products of two fields at every wall-normal point (`Follows`), so the product law of C122 applies pointwise (`Retains`); everything else acts on each wavenumber pair separately, and the linear systems, which depend on the pair only through its wavenumbers, have one solution (`solve_unique'`), so restriction to the retained pairs commutes with every step (`Below`, `BelowRB`). Arrays of the state that are overwritten before use, and the previous stage of the Runge-Kutta method (`b[0] = 0`), need not agree. For the coupled solvers the uniqueness of the block solve is C97 |
| C124 | `Spec/ChebHelmholtz.lean`: collocation with piecewise polynomials, on the intervals of C112. The inner test functions span, at the inner points, all functions, so the inner rows say that the equation holds there. Uniqueness (`Lemmas/ChebHelmholtzForm.lean`): the residual of a solution of the homogeneous equations is `(α + β x) U_{n-1}`, and `u u'` at 1 minus `u u'` at -1 is `2 (α² E E' + β² O O')`, where `E`, `O` are the solutions for `U_{n-1}` and `x U_{n-1}`, positive at 1 with their derivatives; the sum over the domains telescopes (`kx = 0`: the solutions are linear on each domain). The second way moves the known coefficients to two entries of the right-hand side; by the exactness of the quadrature the others have none. Not claimed: the options `Ceven`, `Codd` |
| C125 | system, corrected right-hand side and expansion of sandbox/cheb_helmholtz_sft_nonhomo.py; Galerkin problem with boundary values, existence and uniqueness, exact on representable functions |
| C126 | the two systems of the branch `sparse-even/odd`; they are the even and odd part of the Galerkin system for Gauss-Lobatto quadrature |
| C127 | sandbox/leg_poisson.py with integrals of its basis as matrices; the same system as the second way of C112 with zero boundary values |
| C128 | sandbox/cheb_poisson_sft.py as `solve` of cheb_poisson.py with two more unknowns; upper triangular system |
| C129 | diagonals and offsets of the sparse branch of `solve_neumann`; the matrix of C108 for even `N`, failure for odd `N` |
| C130 | the scaled sparse matrix times `k^2` is the Galerkin matrix of the other quadrature; determinant a nonzero polynomial in `kx`, so regular for all but finitely many `kx` |
| C131 | the rows by induction on the list of runs from its end; the bound by taking logarithms |

## 4. What is modelled

| source | model | left out |
|--------|-------|----------|
| `spectralDNS/__init__.py` | `Model/Solve.lean` (`solve`), `Model/Config.lean` (`get_solver`) | printing (profiling: `Model/Profile.lean`) |
| `spectralDNS/config.py` | `Model/Config.lean` | string conversion of defaults, `--planner_effort` |
| `spectralDNS/maths/integrators.py` | `Model/Integrators.lean`, `Model/PyFloat.lean`, `Model/ErrorEstimate.lean` | `errnorm == "inf"`, `predictivecontroller` (never reached from `getintegrator`) |
| `spectralDNS/maths/cross.py`, `maths.py` | `Model/Periodic.lean` | – |
| `solvers/NS.py`, `NS2D.py`, `VV.py`, `MHD.py`, `Bq2D.py` | `Model/Periodic.lean`, `Model/Accessors.lean`, transforms `Model/Fourier.lean` | creation of spaces and files |
| `dealias='2/3-rule'` of the periodic solvers (config.py:191-193, NS.py:29-31, Bq2D.py:30-32) | `Model/DealiasDirect.lean` | which wavenumbers exactly shenfun's `dealias_direct` keeps: the cut-off is a parameter with `3 c < N` |
| `dealias='2/3-rule'` of the channel solvers (KMM.py:48-54, KMM_RB.py:18-20, KMMRK3_RB.py:18-20, Coupled.py:43-49, CoupledRK3.py:45-51) | `Model/DealiasWall.lean` | as above; whether shenfun cuts anything in the wall-normal direction |
| `solvers/KMM.py`, `KMMRK3.py` | `Model/Channel.lean`, `Model/ChannelConv.lean`, `Model/Pressure.lean` (`get_pressure`) | the factor of the Fourier directions and the subtraction of `|u|^2/2` in `get_pressure` |
| `solvers/KMMr.py` | `Model/KMMr.lean` | its convection forms other than `Vortex` (they cannot run: `Mult_CTD_3D_n` does not exist), `get_pressure` |
| `solvers/KMM_RB.py`, `KMMRK3_RB.py` | `Model/RayleighBenard.lean`, `Model/RBCheb.lean` | – |
| `solvers/Coupled.py`, `CoupledRK3.py` | `Model/Coupled.lean`, `Model/CoupledCheb.lean`, `Model/ChannelConv.lean` | assembly and direct solve of the block matrix (parameters) |
| `shen/LUsolve.pyx` | `Model/LUsolve.lean` | – |
| `shen/Matrices.py` | coefficient matrices in `Model/Channel.lean`, `tcMatvec` | – |
| `h5io/HDF5File.py` | `Model/Solve.lean` | one level of a checkpoint is one atomic write |
| `optimization/*` | `Model/Optimization.lean` | compilation itself; `setup.py` |
| `utilities/__init__.py` | `Model/Utilities.lean` | `MemoryUsage` printing, `memoryprofiler` |
| `utilities/create_profile.py`, profiling in `solve` | `Model/Profile.lean` | `pstats` and the profiler by what they record; `item is key[2]` as equality (interned names); `reset_profile` (works on a line profiler only) |
| `spectralDNS3D_short.py`, `cpp/spectralDNS.cpp` | `Model/Short.lean`, `Model/Dealias.lean` | rounding in the test of the end time of `spectralDNS3D_short.py`; the loop of the C++ program, whose number of steps is an argument |
| `demo/TG*.py`, `Isotropic.py`, `MKM.py` (`Stats`, restart, start, flux control), `RayleighBenard.py`, `LaminarChannel.py` | `Model/Demos.lean`, `Isotropic.lean`, `Utilities.lean`, `MKM.lean`, `RayleighBenard.lean`, `RBDemo.lean`, `Laminar.lean` | plotting |
| shenfun Chebyshev bases, quadratures and `inner_product` as used in KMM.py:26-28, 105-120 | `Model/Galerkin.lean` | shenfun's assembly (closed formulas): entries are the quadrature sums |
| shenfun `forward`, `project`, `backward` along the wall-normal axis, scaled wavenumbers (KMM.py:26-30, 61) | `Model/ChebWall.lean` | shenfun's fast transforms: forward and project are quadrature and solution with the mass matrix |
| `demo/OrrSommerfeld.py`, `demo/OrrSommerfeld_shen.py` (also in `tests/`) | `Model/OrrSommerfeld.lean` | `assemble`, `get_eigval`, `interp`, `initOS`, `initialize`, measured energies; `eig` and `argsort` are parameters, `inner_product` with a measure is the quadrature, the wavenumber in `initOS` is 1 as in the code. Repeated `initialize` in one context would use the `g` of the previous run in the first convection (the theorem about the first step is for a new context) |
| `demo/OrrSommerfeldr.py` (also in `tests/`) | `Model/OrrSommerfeldr.lean` | `initOS`, `initialize` with KMMr, `set_Source`, the measured energies; plotting and the refinement tests are not modelled |
| demo/KelvinHelmholtz.py, KelvinHelmoltzBoussinesq.py, Vortices2D.py, Vortices.py | Model/DemoStarts.lean | `initialize`, `set_source`, the stream function; the random array is arbitrary; plotting and printing not |
| `demo/NS_shenfun.py` | `Model/NSShenfun.lean` | whole script on one rank with real numbers, for any mesh, viscosity, time step and end time; timing and printing left out |
| the channel solvers as `solver` argument of `solve` | `Model/ChannelSolvers.lean` | all seven; callbacks may change the velocity but not the other arrays |
| `sandbox/cheb_poisson.py` | `Model/ChebPoisson.lean` | all functions and the script's sequence of calls, for any `N`; `dct`, `chebgauss`, `chebvander`, `solve_banded`, `diags`, `spsolve` and the module `TDMA` (not in the repository) by what they return; plots and sympy not |
| `sandbox/cheb_poisson_neumann.py` | `Model/ChebPoissonNeumann.lean` | all functions and the script's sequence of calls, for any `N`, with the same external functions by what they return |
| `sandbox/nonhomogen_poisson_leg.py` | `Model/LegPoisson.lean` | the four systems and their solutions, for any `n`, `kx`, `a`, `b` and data; `leggauss` (points and weights with the documented properties), `legvander`, `legder`, `linalg.solve` by what they return; sympy and plots not |
| `sandbox/nonhomogen_poisson.py` | `Model/ChebHelmholtz.lean` | the systems for one (two ways), two (option `C1`) and four domains and their solutions, for any `n`, `kx`, `a`, `b` and data; the points and weights (of a module which is not in the repository), `chebvander`, `chebder`, `linalg.solve` by their documentation; not `Ceven`, `Codd` |
| `sandbox/cheb_helmholtz_sft_nonhomo.py` | `Model/ChebNonhomo.lean` | `solve` (both branches) and the script's sequence of calls, for any `N`, `kx`, `a`, `b` and data; the function space, the matrices and `Helmholtz` (of modules which are not in the repository) by the description in the script; the transforms after the solution not |
| `sandbox/cheb_helmholtz_sft.py` | `Model/ChebEvenOdd.lean` | the branch `sparse-even/odd` of `solve` and its call, for any `N`; `diags`, `spsolve` by what they return; the other branches (modules which are not in the repository) not |
| `sandbox/leg_poisson.py` | `Model/LegShen.lean` | the script's sequence of calls, for any `n`, `kx` and data; the function space and the matrices (of modules which are not in the repository) by the description in the script; sympy not |
| `sandbox/cheb_poisson_sft.py` | `Model/ChebPoissonSft.lean` | the branches `banded` and `sparse` and the script's sequence of calls, for any `N`; the function space by the description in the script; the branch `bs` not |
| `sandbox/cheb_poisson_neumann_sft.py` | `Model/ChebNeumannSft.lean` | `solve_neumann`, both branches, for any `N`; `diags` and `spsolve` by what they return; the transforms (of a module which is not in the repository) not |
| `sandbox/cheb_helmholtz_neumann_sft.py` | `Model/ChebNeumannHelm.lean` | `solve`, branch `"sparse"`, for any `N`, `kx`; `diags` and `spsolve` by what they return; branch `"lu"` (compiled routines which are not in the repository) and the transforms not |
| `demo/refinement_test.py` | `Model/RefinementTest.lean` | the loop and its lists, for any runs; the runs and the reading of their output not (the solver `IPCSRK3` it asks for does not exist); real numbers, no rounding in print |
| remaining demos, other `sandbox/*`, `tests/*` | – | not modelled |

## 5. Trusted base

* Lean's kernel. No `sorry`, no `native_decide`, no added axiom. Every theorem listed in `MANIFEST.json` depends on
  `propext`, `Classical.choice`, `Quot.sound` (checked with `#print axioms` on the whole list), except
  `C44_callable`, `C44_never_none`, `C49_sub_option_false`, `C49_demo_false`, `C49_leak_false`, `C54_wavenumbers` (`propext`, `Quot.sound`)
  and `C50_Bq_false` (`propext`).
* The hand translation of the cited lines into Lean (nothing is executed).
* External code. The following is assumed of it, as a hypothesis of the theorem or as the definition of a parameter:
  * `dealias_direct=True` of shenfun sets the wavenumbers above a cut-off `c`, `3 c < N` along each axis ("upper 1/3"), to zero before the backward
    transform; the forward transform may do the same (C122);
  * periodic transforms of shenfun/mpi4py-fft are the discrete Fourier sums of `Model/Fourier.lean` (forward scaled by the number of points,
    real transform along the last axis); numpy's `fft`, `ifft`, `rfft`, `irfft`, `fftfreq`, `digitize` as documented;
  * wall-normal transforms evaluate the expansion and its projection reproduces functions of the space (`Wall.Exact` in C73;
    `C73_cheb_exact` proves it of quadrature followed by the solution with the mass matrix, at every resolution, for both quadratures);
  * Galerkin matrices are linear maps (C75-C80: the quadratures of products of the Chebyshev bases); solvers (`Helmholtz`, `Biharmonic`,
    `TDMA`, `BlockMatrix.solve`) solve their systems (C75 proves that the first three kinds have exactly one solution, C97 the fourth);
    `HelmholtzSolverT` writes the boundary coefficients; entries of mass and stiffness matrices and `get_ck` as in shenfun (C63);
  * MPI `reduce`, `bcast`, `Alltoall` with their standard meaning; every rank runs the same program;
  * argparse as documented (shared parent actions, `set_defaults`, fresh namespaces of sub-parsers);
  * `energy_fourier` weights of the half spectrum.
* Assumptions about use: callbacks do not change `params`; `write_result` and `checkpoint` are positive integers.

## 6. What the proofs found in the code

* AB2 forgets its previous right-hand side when `solve` is called again (C20); BS5 reuses a stage of an outdated state after callbacks that
  change it, as `Isotropic.py` does, and after restarts (C23); an error estimate that is NaN is accepted (C25); the estimate and so the
  steps depend on the number of ranks (C57).
* `solve` with no step to do fails in `HDF5File.close` (C31); a remaining time below the tolerance is silently skipped (C32).
* A crash can leave a checkpoint with levels of two different steps; append mode resets the time stamps (C42). Killing fails if only
  another rank's directory contains the file (C43).
* MKM.py restarts take the mean flow from the older level and the convection with an outdated `g` (C36). RayleighBenard.py restarts
  ignore the newest temperature and store the time in `tstep` (C65).
* The cython `AB2_2D` tests `tstep == 1`, the cython `ForwardEuler` has the wrong number of arguments (C45); `_cross3_2D` reads out of
  bounds (C46). The optimizer depends on `config.mesh` not existing (C44).
* Options of sub-parsers ignore `config.update`, shared options leak between meshes, an old `N` beats a later `M` (C49). Offered but missing:
  the solver `Bq`, the default `Vortex` form of MHD, other forms of VV and KMMr (C50).
* The two-thirds rule as coded removes aliasing only for N % 3 = 1 (C55). With the VV solver the isotropic demo divides by zero (C56);
  its random phases are positive reals because of `2j*pi` (C58).
* The C++ program does not recompute the velocity after a step and damps the mean flow (C62).
* KMM_RB mixes the mass matrices of two quadratures (C63: conduction can grow; C79: the last row of the heat equation is wrong on every grid; C80: at every resolution conduction is unstable for all small time steps; C100: after one step the temperature does not tend to the solution as dt goes to zero) and evaluates the heat convection at the start of the
  step, first order (C66). KMMRK3_RB takes the buoyancy from the start of each substep, first order (C100). CoupledRK3 stores a third of the pressure (C69).
* The temperature space of the Rayleigh-Benard solvers is created without `quad`: with `Dquad = GL` the temperature lives on other points than
  the velocity, products mix the two (read off while modelling `bwdT`; C79 is stated for the default quadrature).
* KMM's divergence and skew forms read Dirichlet coefficients as biharmonic ones (C73). `KMM.get_pressure` reads biharmonic
  coefficients as Dirichlet ones and takes the constant of the pressure from the last coefficient of the convection (C87); it fails with KMMRK3, which deletes `U_hat0` (not modelled).
* RayleighBenard.py and the solvers disagree about `bc=(1, 0)`: `initialize` is the conduction profile if the lower wall comes first (the convention of
  shenfun from version 4), `dTdx_hat` of KMMRK3_RB is right if the upper wall comes first (C90). Its `update` refreshes the arrays at all steps but the sampled
  ones (`tstep % sample_stats` without `== 0`), so that samples can be one step old; `plot_result = 0` is a division by zero; plotting after a restart fails (C91).
* The default `random` start of Vortices.py is a vorticity that is not divergence free and that `get_divergence` cannot report (C08); Vortices2D.py does not
  mask, its start has a divergence at Nyquist modes (C89).
* With the default Vortex form `get_pressure` of NS returns the total pressure `p + |u|^2/2` (C82); the `P` written to file depends on the form.
* `get_divergence` of VV is zero whatever the state (C08); `Mult_Div_1D` needs N ≥ 7 (C39); the Gauss-Lobatto quadrature of `dx` counts the
  last coefficient twice for odd M (C52); `Stats` slices are wrong for unequal planes (C53).
* `fastShenTransNeumann` of sandbox/cheb_poisson_neumann.py does not use the array `ck` it builds; its last coefficient, and with it others, are wrong
  (C108). The script does not show it because its function is even and its `N` is even, so that the last coefficient is zero.
* The docstring of sandbox/nonhomogen_poisson_leg.py has the boundary values exchanged: the script computes `u(-1) = a`, `u(1) = b` (C112).
* sandbox/nonhomogen_poisson.py imports `spectralDNS.shen.shentransform`, which does not exist, so the script cannot run as it is; C124 is about its computation with the documented points and weights. Its docstring has the boundary values exchanged as well.
* `create_profile` takes the first function that matches a name, in an order that differs between ranks, so that its table can mix two functions, and it
  blocks if a function was called on some ranks only (C118). The profiler is not cleared: a second run reports the profile of the first (C119).
* sandbox/cheb_helmholtz_sft.py, branch `sparse-even/odd`: the right-hand side still has `N` entries where the two systems have `N-2` unknowns, so the call fails for
  every `N`; with the last two entries removed, as in the other branches, the result is right (C126).
* sandbox/cheb_poisson_neumann_sft.py, sparse branch: the loop over the diagonals ends one step later than the list of offsets if `N` is odd, and `diags` fails (C129).
  The script as it stands does not reach it: line 9 imports `ShenNeumannBasis` from a module `shentransform` which is not in the repository, and line 32 calls `ShenNeumannFunctionSpace`, which is not imported. C129 is about `solve_neumann` given `k`, `N` and `banded`. Read off, not modelled.
* sandbox/cheb_helmholtz_neumann_sft.py, sparse branch: `ck[-1] = 2` (line 150) is set for `"GC"`, but it is the weight of Gauss-Lobatto quadrature (C130). This reads `"GC"` as Gauss-Chebyshev, as in the comment of line 67; the class of `ST` is not in the repository and not imported (line 63), so an older meaning of the name cannot be excluded.
* Read off while modelling OrrSommerfeldr.py (C114): its spatial refinement test varies `M[0]` and leaves the wall-normal axis with two points;
  `KMMr.get_pressure` is that of KMM without exchanged axes; demo/refinement_test.py asks for the solver `IPCSRK3`, which does not exist.

## 7. Tests against wrong programs

`seeded/LOG.jsonl` has one line per experiment: the definition, the edit (old and new text), the claim it breaks, the theorems (or helper
lemmas they need) that no longer check, whether it survived, and what was tightened after a survivor. Survivors are run again later
under a new number.

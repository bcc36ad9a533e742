import Verif.Model.Channel
import Mathlib.LinearAlgebra.Matrix.ToLin
import Mathlib.Analysis.SpecialFunctions.Trigonometric.Basic

/-!
# The Rayleigh-Benard solvers KMM_RB and KMMRK3_RB

The temperature space `RB` (bc=(1, 0), KMM_RB.py:18) holds along the wall-normal axis the coefficients of the Dirichlet basis followed
by two boundary coefficients `phi_hat[-2]`, `phi_hat[-1]`.  The function is the Dirichlet part plus
`0.5*(phi_hat[-2]+phi_hat[-1])*T_0 + 0.5*(phi_hat[-2]-phi_hat[-1])*T_1`.

Not modelled, parameters instead: as in `Model/Channel.lean`, and the forward transforms of the products `phi0*UCN[i]`.  The matrix
products act on the Dirichlet part, as `matvec` of shenfun does.  `HelmholtzSolverT` computes the Dirichlet part and writes the boundary
values of the space into the last two coefficients.
-/

namespace SpectralDNS.Channel

variable {κ B D : Type*} [DecidableEq κ] [AddCommGroup B] [Module ℂ B] [AddCommGroup D] [Module ℂ D]

/-- `phi_hat`: Dirichlet coefficients `d`, boundary coefficients `p = phi_hat[-2]` and `q = phi_hat[-1]`. -/
@[ext] structure Temp (κ D : Type*) where
  d : κ → D
  p : κ → ℂ
  q : κ → ℂ

/-- What `get_context` adds to the KMM context (KMM_RB.py:15-55): `kappa`, rows 0 and 1 of the biharmonic test space (`e0`, `e1`), the
first two diagonal entries of `BTT`, the forward transforms of products with the temperature into the spaces `SB` and `ST`, and the
boundary coefficients of `RB`.  `ADDR`, `BDDR` are the matrices of the space `RB` in `HelmholtzSolverT` (KMM_RB.py:37-38, 43-45; the quadrature is shenfun's
default, Gauss-Chebyshev), `ADDT`, `BDDT` those inside `TC` (KMM_RB.py:46: quadrature not given, so `"GL"` from shen/Matrices.py:32;
KMMRK3_RB.py:42: the quadrature of `ST`). -/
structure RBCtx (κ B D : Type*) [AddCommGroup B] [Module ℂ B] [AddCommGroup D] [Module ℂ D] where
  c : Ctx κ B D
  kappa : ℝ
  e0 : B
  e1 : B
  btt0 : ℝ
  btt1 : ℝ
  prodB : Temp κ D → (κ → B) → κ → B
  prodD : Temp κ D → (κ → D) → κ → D
  bcp : κ → ℂ
  bcq : κ → ℂ
  ADDR : D →ₗ[ℂ] D
  BDDR : D →ₗ[ℂ] D
  ADDT : D →ₗ[ℂ] D
  BDDT : D →ₗ[ℂ] D

/-- `TC.matvec` (shen/Matrices.py:30-48): `alfa*ADD + beta*BDD`. -/
def tcMatvec (r : RBCtx κ B D) (alfa beta : ℝ) (v : D) : D := (alfa : ℂ) • r.ADDT v + (beta : ℂ) • r.BDDT v

/-- `-c.K2*c.mat.BBD.matvec(phi, w1)` with the two boundary rows (KMM_RB.py:80-82, KMMRK3_RB.py:66-68). -/
noncomputable def buoyancy (r : RBCtx κ B D) (phi : Temp κ D) (k : κ) : B :=
  -(r.c.G.Ksq k : ℂ) • r.c.M.BBD (phi.d k) - (0.5 * r.btt0 * (phi.p k + phi.q k) * r.c.G.Ksq k : ℂ) • r.e0
    - (0.5 * r.btt1 * (phi.p k - phi.q k) * r.c.G.Ksq k : ℂ) • r.e1

/-- `phi_ab[:] = 1.5*phi_hat0 - 0.5*phi_hat1` (KMM_RB.py:78, 107). -/
noncomputable def phiAb (phi0 phi1 : Temp κ D) : Temp κ D :=
  ⟨fun k => (1.5 : ℂ) • phi0.d k - (0.5 : ℂ) • phi1.d k, fun k => 1.5 * phi0.p k - 0.5 * phi1.p k,
   fun k => 1.5 * phi0.q k - 0.5 * phi1.q k⟩

/-- `0.5*(u_hat + U_hat0)` (KMM_RB.py:106). -/
noncomputable def meanVel (U U0 : Vel κ B D) : Vel κ B D :=
  ⟨fun k => (0.5 : ℂ) • (U.u k + U0.u k), fun k => (0.5 : ℂ) • (U.v k + U0.v k), fun k => (0.5 : ℂ) • (U.w k + U0.w k)⟩

/-- `DivRBConvection` after the velocity and the temperature have been chosen (KMM_RB.py:108-116). -/
noncomputable def divRB (r : RBCtx κ B D) (U : Vel κ B D) (phi : Temp κ D) (k : κ) : D :=
  r.c.M.CDB (r.prodB phi U.u k) + r.c.M.BDD ((Complex.I * r.c.G.K1 k) • r.prodD phi U.v k)
    + r.c.M.BDD ((Complex.I * r.c.G.K2 k) • r.prodD phi U.w k)

/-- `rhs[2].mask_nyquist(context.mask)` (KMM_RB.py:87-88, KMMRK3_RB.py:72-73). -/
def maskT (mask : Option (κ → ℝ)) (N : κ → D) : κ → D :=
  match mask with
  | none => N
  | some m => fun k => (m k : ℂ) • N k

/-! ## KMM_RB -/

/-- The arrays of the KMM_RB context which survive from one call to the next (`phi_ab`, `UCN`, `phi0` are overwritten before they
are read). -/
@[ext] structure RBSt (κ B D : Type*) where
  s : St κ B D
  phi : Temp κ D
  phi0 : Temp κ D
  phi1 : Temp κ D
  N : κ → D
  N0 : κ → D

/-- `ComputeRHS` (KMM_RB.py:71-93), with `DivRBConvection`; `tcMatvec` is `TC` (KMM_RB.py:46). -/
noncomputable def computeRHSRB (r : RBCtx κ B D) (s : RBSt κ B D) : RBSt κ B D × (κ → B) × (κ → D) × (κ → D) :=
  let base := computeRHS r.c s.s
  let ab := phiAb s.phi0 s.phi1
  let rhs0 := fun k => base.2.1 k + (r.c.dt : ℂ) • buoyancy r ab k
  let N := divRB r (meanVel s.s.U s.s.U0) ab
  let rhs2 := fun k => ((-2 / r.kappa : ℝ) : ℂ) • maskT r.c.mask N k
    + tcMatvec r 1 (2 / r.kappa / r.c.dt - r.c.G.Ksq k) (s.phi0.d k)
  ({ s with s := base.1, N := N }, rhs0, base.2.2, rhs2)

/-- `solve_linear` (KMM_RB.py:95-98). -/
noncomputable def solveLinearRB (r : RBCtx κ B D) (la : LA κ B D) (solveT : κ → D → D) (s : RBSt κ B D) (rhs0 : κ → B)
    (rhs1 rhs2 : κ → D) : RBSt κ B D :=
  { s with s := solveLinear r.c la s.s rhs0 rhs1, phi := ⟨fun k => solveT k (rhs2 k), r.bcp, r.bcq⟩ }

/-- `integrate` (KMM_RB.py:156-161). -/
noncomputable def integrateRB (r : RBCtx κ B D) (la : LA κ B D) (solveT : κ → D → D) (s : RBSt κ B D) : RBSt κ B D :=
  solveLinearRB r la solveT (computeRHSRB r s).1 (computeRHSRB r s).2.1 (computeRHSRB r s).2.2.1 (computeRHSRB r s).2.2.2

/-- `end_of_tstep` (KMM_RB.py:63-69). -/
def endOfTstepRB (s : RBSt κ B D) : RBSt κ B D :=
  { s with phi1 := s.phi0, phi0 := s.phi, s := { s.s with U0 := s.s.U, H1 := s.s.H }, N0 := s.N }

/-- One pass of the time loop (__init__.py:87-118); the demo's `update` (RayleighBenard.py:32-87) changes no coefficients. -/
noncomputable def tickRB (r : RBCtx κ B D) (la : LA κ B D) (solveT : κ → D → D) (s : RBSt κ B D) : RBSt κ B D :=
  endOfTstepRB (integrateRB r la solveT s)

/-- `HelmholtzSolverT` solves its system (KMM_RB.py:43-45, KMMRK3_RB.py:40-41, there `ab = a[rk]+b[rk]`, here one). -/
def SolvesT (r : RBCtx κ B D) (ab : ℝ) (solveT : κ → D → D) : Prop :=
  ∀ k b, -r.ADDR (solveT k b) + ((r.c.G.Ksq k + 2 / r.kappa / ab / r.c.dt : ℝ) : ℂ) • r.BDDR (solveT k b) = b

/-- Time parameters. `tstep` is an integer in a run; `init_from_file` may store a float in it. -/
@[ext] structure Clock where
  t : ℝ
  tstep : ℝ

/-- `init_from_file` (RayleighBenard.py:179-210), fields: `level0`, `level1` are checkpointed as `'0'` and `'1'` (KMM_RB.py:48-53). -/
noncomputable def initRB (r : RBCtx κ B D) (s : RBSt κ B D) (level0 level1 : Vel κ B D × Temp κ D) : RBSt κ B D :=
  let g1 := vorticity r.c.G level1.1
  let H := r.c.conv level1.1 g1
  { s with
    s := { s.s with U := level0.1, g := vorticity r.c.G level0.1, U0 := level1.1, H := H, H1 := H }
    phi0 := level1.2
    phi := level0.2 }

/-- `init_from_file` (RayleighBenard.py:206-209), time stamps: both assignments go to `params.tstep`. -/
def initClock (file now : Clock) : Clock :=
  let now := { now with tstep := file.tstep }
  { now with tstep := file.t }

/-! ## KMMRK3_RB -/

/-- The arrays of the KMMRK3_RB context which survive from one call to the next. -/
@[ext] structure RB3St (κ B D : Type*) where
  s : St3 κ B D
  phi : Temp κ D
  N0 : κ → D

/-- `ComputeRHS` and `solve_linear` for substep `rk` (KMMRK3_RB.py:58-83).  `convT` is `StandardRBConvection`
(KMMRK3_RB.py:101-119), any function of velocity and temperature; it is called with the same array as work array and as result, the
model assumes that this does no harm. -/
noncomputable def substepRB (r : RBCtx κ B D) (convT : Vel κ B D → Temp κ D → κ → D) (la : Fin 3 → LA κ B D)
    (solveT : Fin 3 → κ → D → D) (rk : Fin 3) (s : RB3St κ B D) : RB3St κ B D :=
  let a := rkA rk
  let b := rkB rk
  let base := computeRHS3 r.c rk s.s
  let rhs0 := fun k => base.2.1 k + ((r.c.dt * (a + b) : ℝ) : ℂ) • buoyancy r s.phi k
  let N := maskT r.c.mask (convT s.s.U s.phi)
  let rhs2 := fun k => ((-2 / r.kappa / (a + b) : ℝ) : ℂ) • ((a : ℂ) • N k + (b : ℂ) • s.N0 k)
    + tcMatvec r 1 (2 / r.kappa / r.c.dt / (a + b) - r.c.G.Ksq k) (s.phi.d k)
  { s := solveLinear3 r.c (la rk) rk base.1 rhs0 base.2.2
    phi := ⟨fun k => solveT rk k (rhs2 k), r.bcp, r.bcq⟩
    N0 := N }

/-- `integrate` (KMMRK3_RB.py:121-128). -/
noncomputable def integrateRB3 (r : RBCtx κ B D) (convT : Vel κ B D → Temp κ D → κ → D) (la : Fin 3 → LA κ B D)
    (solveT : Fin 3 → κ → D → D) (s : RB3St κ B D) : RB3St κ B D :=
  substepRB r convT la solveT 2 (substepRB r convT la solveT 1 (substepRB r convT la solveT 0 s))

/-- `init_from_file` (RayleighBenard.py:179-210) for KMMRK3_RB, which checkpoints one level (KMMRK3_RB.py:44-48). -/
noncomputable def initRB3 (r : RBCtx κ B D) (s : RB3St κ B D) (level0 : Vel κ B D × Temp κ D) : RB3St κ B D :=
  { s with s := { s.s with U := level0.1, g := vorticity r.c.G level0.1 }, phi := level0.2 }

/-! ## The matrices of a Dirichlet space -/

/-- `get_ck` of shenfun: factors of the discrete norms `π/2 * ck` of the Chebyshev polynomials with `N` quadrature points. -/
def ck (gl : Bool) (N k : ℕ) : ℝ := if k = 0 ∨ (gl = true ∧ k + 1 = N) then 2 else 1

/-- Mass matrix of the Dirichlet basis `T_k - T_{k+2}`, `k < N-2` (`inner_product((SD, 0), (SD, 0))`, shen/Matrices.py:38), by discrete
orthogonality. -/
noncomputable def massMatrix (gl : Bool) (N : ℕ) : Matrix (Fin (N - 2)) (Fin (N - 2)) ℂ := fun i j =>
  if i = j then ((Real.pi / 2 * (ck gl N i + ck gl N (i + 2)) : ℝ) : ℂ)
  else if (j : ℕ) = i + 2 ∨ (i : ℕ) = j + 2 then ((-(Real.pi / 2) : ℝ) : ℂ) else 0

/-- Stiffness matrix of the Dirichlet basis (`inner_product((SD, 0), (SD, 2))`, shen/Matrices.py:39), exact for both quadratures. -/
noncomputable def stiffMatrix (N : ℕ) : Matrix (Fin (N - 2)) (Fin (N - 2)) ℂ := fun i j =>
  if i = j then ((-2 * Real.pi * (i + 1) * (i + 2) : ℝ) : ℂ)
  else if i < j ∧ ((j : ℕ) - i) % 2 = 0 then ((-4 * Real.pi * (i + 1) : ℝ) : ℂ) else 0

end SpectralDNS.Channel

import Verif.Model.Channel

/-!
# The coupled channel solvers Coupled and CoupledRK3

One array entry per wavenumber pair `k : κ`; along the wall-normal axis the velocity components hold coefficients of the Dirichlet basis
(`ST`, the module `D`), the pressure holds Chebyshev coefficients (`CP`, the module `P`); `R` holds inner products with the pressure test
functions.

Not modelled, parameters instead: the matrices assembled by `inner` and `BlockMatrix` (linear maps), the direct solve
`BlockMatrix.solve` (a function, required to solve its system when a theorem needs it), the convection term (any function of the
velocity), rounding errors.
-/

namespace SpectralDNS.Coupled

open SpectralDNS.Channel (Grid Vec maskVec)

variable {κ D P R : Type*} [DecidableEq κ] [AddCommGroup D] [Module ℂ D] [AddCommGroup P] [Module ℂ P] [AddCommGroup R] [Module ℂ R]

/-- The blocks of `a0+a1+a2` (Coupled.py:101-106, CoupledRK3.py:104-109) without their scalar factors: `ADD`, `BDD` velocity with velocity, `CDP` velocity test
with pressure derivative, `BDP` velocity test with pressure, `CPD` pressure test with velocity derivative, `BPD` pressure test with
velocity. -/
structure Mats (D P R : Type*) [AddCommGroup D] [Module ℂ D] [AddCommGroup P] [Module ℂ P] [AddCommGroup R] [Module ℂ R] where
  ADD : D →ₗ[ℂ] D
  BDD : D →ₗ[ℂ] D
  CDP : P →ₗ[ℂ] D
  BDP : P →ₗ[ℂ] D
  CPD : D →ₗ[ℂ] R
  BPD : D →ₗ[ℂ] R

/-- `U_hat`, three components in the Dirichlet space (Coupled.py:62). -/
abbrev Vel (κ D : Type*) := Vec κ D

/-- Everything fixed during a run. `Sk1` is `Sk[1]`. -/
structure Ctx (κ D P R : Type*) [AddCommGroup D] [Module ℂ D] [AddCommGroup P] [Module ℂ P] [AddCommGroup R] [Module ℂ R] where
  nu : ℝ
  dt : ℝ
  G : Grid κ
  M : Mats D P R
  mask : Option (κ → ℝ)
  conv : Vel κ D → Vec κ D
  Sk1 : κ → D

/-- `mat.AB.matvec` (Coupled.py:111, 316-318; shen/Matrices.py:30-48). -/
noncomputable def abMatvec (c : Ctx κ D P R) (alfa : ℝ) (k : κ) (v : D) : D :=
  c.M.ADD v + ((alfa - c.G.Ksq k : ℝ) : ℂ) • c.M.BDD v

/-- The block system with constraints solved by `BlockMatrix.solve` (Coupled.py:53-54, 101-106, 333; CoupledRK3.py:29-30, 105-110, 349): momentum rows with factors `alfa`
and `beta`, continuity rows; at the mean mode the continuity rows `0` and `N-1` are replaced by `p[0] = 0` and `p[N-1] = 0`, so only the
rows seen by `rest` hold there. -/
structure Solves (c : Ctx κ D P R) (alfa beta : ℝ) {R' : Type*} [AddCommGroup R'] [Module ℂ R'] (rest : R →ₗ[ℂ] R')
    (pin0 pin1 : P →ₗ[ℂ] ℂ) (solve : Vec κ D → Vel κ D × (κ → P)) : Prop where
  mom0 : ∀ rhs k, (alfa : ℂ) • c.M.BDD ((solve rhs).1.c0 k) - (c.M.ADD ((solve rhs).1.c0 k) - (c.G.Ksq k : ℂ) • c.M.BDD ((solve rhs).1.c0 k))
    + (beta : ℂ) • c.M.CDP ((solve rhs).2 k) = rhs.c0 k
  mom1 : ∀ rhs k, (alfa : ℂ) • c.M.BDD ((solve rhs).1.c1 k) - (c.M.ADD ((solve rhs).1.c1 k) - (c.G.Ksq k : ℂ) • c.M.BDD ((solve rhs).1.c1 k))
    + (beta : ℂ) • (Complex.I * c.G.K1 k) • c.M.BDP ((solve rhs).2 k) = rhs.c1 k
  mom2 : ∀ rhs k, (alfa : ℂ) • c.M.BDD ((solve rhs).1.c2 k) - (c.M.ADD ((solve rhs).1.c2 k) - (c.G.Ksq k : ℂ) • c.M.BDD ((solve rhs).1.c2 k))
    + (beta : ℂ) • (Complex.I * c.G.K2 k) • c.M.BDP ((solve rhs).2 k) = rhs.c2 k
  cont : ∀ rhs k, k ≠ c.G.zero → (beta : ℂ) • (c.M.CPD ((solve rhs).1.c0 k) + (Complex.I * c.G.K1 k) • c.M.BPD ((solve rhs).1.c1 k)
    + (Complex.I * c.G.K2 k) • c.M.BPD ((solve rhs).1.c2 k)) = 0
  cont0 : ∀ rhs, rest ((beta : ℂ) • c.M.CPD ((solve rhs).1.c0 c.G.zero)) = 0
  pin0 : ∀ rhs, pin0 ((solve rhs).2 c.G.zero) = 0
  pin1 : ∀ rhs, pin1 ((solve rhs).2 c.G.zero) = 0

/-! ## Coupled -/

/-- The arrays of the Coupled context which survive from one call to the next; `pr`, `pr0` are `P_hat`, `P_hat0`. -/
@[ext] structure St (κ D P : Type*) where
  U : Vel κ D
  pr : κ → P
  H : Vec κ D
  H0 : Vec κ D
  H1 : Vec κ D
  U0 : Vel κ D
  pr0 : κ → P

/-- `assembleAB` (Coupled.py:282-285). -/
noncomputable def assembleAB (H H1 : Vec κ D) : Vec κ D :=
  ⟨fun k => (1.5 : ℂ) • H.c0 k - (0.5 : ℂ) • H1.c0 k, fun k => (1.5 : ℂ) • H.c1 k - (0.5 : ℂ) • H1.c1 k,
   fun k => (1.5 : ℂ) • H.c2 k - (0.5 : ℂ) • H1.c2 k⟩

/-- `ComputeRHS` (Coupled.py:287-325); the pressure part of `rhs` stays zero. -/
noncomputable def computeRHS (c : Ctx κ D P R) (s : St κ D P) : St κ D P × Vec κ D :=
  let H := c.conv s.U
  let H0 := maskVec c.mask (assembleAB H s.H1)
  let alfa := 2 / c.nu / c.dt
  let beta := ((2 / c.nu : ℝ) : ℂ)
  ({ s with H := H, H0 := H0 },
   ⟨fun k => abMatvec c alfa k (s.U.c0 k) + beta • c.M.BDD (H0.c0 k),
    fun k => abMatvec c alfa k (s.U.c1 k) + beta • c.M.BDD (H0.c1 k) - beta • c.Sk1 k,
    fun k => abMatvec c alfa k (s.U.c2 k) + beta • c.M.BDD (H0.c2 k)⟩)

/-- `integrate` (Coupled.py:328-337). -/
noncomputable def integrate (c : Ctx κ D P R) (solve : Vec κ D → Vel κ D × (κ → P)) (s : St κ D P) : St κ D P :=
  let up := solve (computeRHS c s).2
  { (computeRHS c s).1 with
    U := ⟨Function.update up.1.c0 c.G.zero 0, up.1.c1, up.1.c2⟩
    pr := up.2 }

/-- `end_of_tstep` (Coupled.py:131-139). -/
def endOfTstep (s : St κ D P) : St κ D P := { s with U0 := s.U, pr0 := s.pr, H1 := s.H }

/-- One pass of the time loop (__init__.py:94-112) with an `update` which may change the velocity. -/
noncomputable def tick (c : Ctx κ D P R) (solve : Vec κ D → Vel κ D × (κ → P)) (upd : Vel κ D → Vel κ D) (s : St κ D P) : St κ D P :=
  let s := integrate c solve s
  endOfTstep { s with U := upd s.U }

/-- `get_divergence` (Coupled.py:157-163) per wavenumber pair, before the backward transform: `project(div(U_hat), FST)` with test functions
of the Dirichlet space, `CDD` and `BDD` the inner products with derivative and function, `solveBDD` the mass solve of `project`. -/
noncomputable def divergenceHat (G : Grid κ) (CDD BDD : D →ₗ[ℂ] D) (solveBDD : D → D) (mask : Option (κ → ℝ)) (U : Vel κ D) (k : κ) : D :=
  let d := solveBDD (CDD (U.c0 k) + (Complex.I * G.K1 k) • BDD (U.c1 k) + (Complex.I * G.K2 k) • BDD (U.c2 k))
  match mask with
  | none => d
  | some m => (m k : ℂ) • d

/-! ## CoupledRK3 -/

/-- The arrays of the CoupledRK3 context which survive from one call to the next: `hv0` is `hv[0]`. -/
@[ext] structure St3 (κ D P : Type*) where
  U : Vel κ D
  pr : κ → P
  H : Vec κ D
  hv0 : Vec κ D

/-- `ComputeRHS` (CoupledRK3.py:288-341), Chebyshev family. -/
noncomputable def computeRHS3 (c : Ctx κ D P R) (rk : Fin 3) (s : St3 κ D P) : St3 κ D P × Vec κ D :=
  let a := Channel.rkA rk
  let b := Channel.rkB rk
  let H := maskVec c.mask (c.conv s.U)
  let hv : Vec κ D := ⟨fun k => c.M.BDD (H.c0 k), fun k => c.M.BDD (H.c1 k) - c.Sk1 k, fun k => c.M.BDD (H.c2 k)⟩
  let alfa := 2 / c.nu / c.dt / (a + b)
  let f := ((2 / c.nu / (a + b) : ℝ) : ℂ)
  ({ s with H := H, hv0 := hv },
   ⟨fun k => abMatvec c alfa k (s.U.c0 k) + f • ((a : ℂ) • hv.c0 k + (b : ℂ) • s.hv0.c0 k),
    fun k => abMatvec c alfa k (s.U.c1 k) + f • ((a : ℂ) • hv.c1 k + (b : ℂ) • s.hv0.c1 k),
    fun k => abMatvec c alfa k (s.U.c2 k) + f • ((a : ℂ) • hv.c2 k + (b : ℂ) • s.hv0.c2 k)⟩)

/-- One pass of the loop in `integrate` (CoupledRK3.py:343-351). -/
noncomputable def substep (c : Ctx κ D P R) (solve : Fin 3 → Vec κ D → Vel κ D × (κ → P)) (rk : Fin 3) (s : St3 κ D P) : St3 κ D P :=
  let up := solve rk (computeRHS3 c rk s).2
  { (computeRHS3 c rk s).1 with U := up.1, pr := up.2 }

/-- `integrate` (CoupledRK3.py:343-351). -/
noncomputable def integrate3 (c : Ctx κ D P R) (solve : Fin 3 → Vec κ D → Vel κ D × (κ → P)) (s : St3 κ D P) : St3 κ D P :=
  substep c solve 2 (substep c solve 1 (substep c solve 0 s))

end SpectralDNS.Coupled

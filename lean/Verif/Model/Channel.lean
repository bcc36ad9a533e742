import Mathlib.Analysis.Complex.Basic
import Mathlib.Algebra.Module.LinearMap.Basic
import Mathlib.Tactic.Module

/-!
# The channel solvers KMM and KMMRK3

One array entry per wavenumber pair `k : κ` (all ranks together); along the wall-normal axis an array holds the coefficients of a
function in a Shen basis, an element of the space `B` (biharmonic basis `SB`) or `D` (Dirichlet basis `ST`).

Not modelled, parameters instead: the Galerkin matrices (`inner_product` and `matvec` of shenfun, any linear maps), the linear
solvers (`Helmholtz`, `Biharmonic`, `TDMA` of shenfun, functions required to solve their system when a theorem needs it), the
convection term (any function of the velocity and `g`), rounding errors.  Work arrays are not modelled: each is written before it is
read in the functions below (`work[(…, True)]` is zeroed first).  KMM.py puts the wall-normal direction first; KMMr.py is the same
algorithm with the wall-normal direction last, see `Grid.X1`.
-/

namespace SpectralDNS.Channel

variable {κ B D : Type*} [DecidableEq κ] [AddCommGroup B] [Module ℂ B] [AddCommGroup D] [Module ℂ D]

/-- Wavenumbers in the two periodic directions, `K[1]` and `K[2]` (KMM.py:61; `K[0]`, `K[1]` in KMMr.py); `X1`, `X2` are the ones
multiplying the convection: `K` again in KMM.py:454-456, `Kx` (highest frequency removed) in KMMr.py:84, 450-453.  `zero` is the entry
`[:, 0, 0]` of rank 0. -/
structure Grid (κ : Type*) where
  K1 : κ → ℝ
  K2 : κ → ℝ
  X1 : κ → ℝ
  X2 : κ → ℝ
  zero : κ

/-- `K2 = K[1]*K[1]+K[2]*K[2]` (KMM.py:83). -/
def Grid.Ksq (G : Grid κ) (k : κ) : ℝ := G.K1 k * G.K1 k + G.K2 k * G.K2 k

/-- `K4 = K2**2` (KMM.py:84). -/
def Grid.K4 (G : Grid κ) (k : κ) : ℝ := G.Ksq k ^ 2

open Classical in
/-- `K_over_K2[0]` (KMM.py:86-88). -/
noncomputable def Grid.over1 (G : Grid κ) (k : κ) : ℝ := G.K1 k / (if G.Ksq k = 0 then 1 else G.Ksq k)

open Classical in
/-- `K_over_K2[1]` (KMM.py:86-88). -/
noncomputable def Grid.over2 (G : Grid κ) (k : κ) : ℝ := G.K2 k / (if G.Ksq k = 0 then 1 else G.Ksq k)

/-- `mat` (KMM.py:105-120) without `AB`, `AC`, which are `helmholtzCoeff` and `biharmonicCoeff`, and `CDD`, used by the convection. -/
structure Mats (B D : Type*) [AddCommGroup B] [Module ℂ B] [AddCommGroup D] [Module ℂ D] where
  CBD : D →ₗ[ℂ] B
  ABB : B →ₗ[ℂ] B
  BBB : B →ₗ[ℂ] B
  SBB : B →ₗ[ℂ] B
  ADD : D →ₗ[ℂ] D
  BDD : D →ₗ[ℂ] D
  BBD : D →ₗ[ℂ] B
  CDB : B →ₗ[ℂ] D
  ADD0 : D →ₗ[ℂ] D
  BDD0 : D →ₗ[ℂ] D

/-- `HelmholtzCoeff.matvec` (shen/Matrices.py:30-48): `alfa*ADD + beta*BDD`. -/
def helmholtzCoeff (M : Mats B D) (alfa beta : ℝ) (v : D) : D := (alfa : ℂ) • M.ADD v + (beta : ℂ) • M.BDD v

/-- `BiharmonicCoeff.matvec` (shen/Matrices.py:8-28): `a0*SBB + alfa*ABB + beta*BBB`. -/
def biharmonicCoeff (M : Mats B D) (a0 alfa beta : ℝ) (v : B) : B :=
  (a0 : ℂ) • M.SBB v + (alfa : ℂ) • M.ABB v + (beta : ℂ) • M.BBB v

/-- Velocity coefficients: wall-normal component `u`, streamwise `v`, spanwise `w` (`U_hat[0]`, `U_hat[1]`, `U_hat[2]` in KMM.py). -/
@[ext] structure Vel (κ B D : Type*) where
  u : κ → B
  v : κ → D
  w : κ → D

/-- Three components of a vector in the Dirichlet basis, for the convection `H_hat`. -/
@[ext] structure Vec (κ D : Type*) where
  c0 : κ → D
  c1 : κ → D
  c2 : κ → D

/-- The linear solvers `la` for one coefficient set (KMM.py:122-129; one per substep in KMMRK3.py:32-43).  The initial guess passed as
second argument is overwritten. -/
structure LA (κ B D : Type*) where
  helmholtzG : κ → D → D
  biharmonicU : κ → B → B
  helmholtzU0 : D → D
  tdmaD : D → D

/-- The systems solved by `la` (KMM.py:122-129), coefficients as in `get_context`. -/
structure LA.Solves (la : LA κ B D) (nu dt : ℝ) (G : Grid κ) (M : Mats B D) : Prop where
  helmholtzG : ∀ k b, -M.ADD (la.helmholtzG k b) + ((G.Ksq k + 2 / nu / dt : ℝ) : ℂ) • M.BDD (la.helmholtzG k b) = b
  biharmonicU : ∀ k b, ((-nu * dt / 2 : ℝ) : ℂ) • M.SBB (la.biharmonicU k b)
    + ((1 + nu * dt * G.Ksq k : ℝ) : ℂ) • M.ABB (la.biharmonicU k b)
    + ((-(G.Ksq k + nu * dt / 2 * G.K4 k) : ℝ) : ℂ) • M.BBB (la.biharmonicU k b) = b
  helmholtzU0 : ∀ b, -M.ADD0 (la.helmholtzU0 b) + ((2 / nu / dt : ℝ) : ℂ) • M.BDD0 (la.helmholtzU0 b) = b
  tdmaD : ∀ b, M.BDD (la.tdmaD b) = b

/-- The systems solved by `la` in substep `rk` of KMMRK3 (KMMRK3.py:32-43); `ab` is `a[rk]+b[rk]`. -/
structure LA.Solves3 (la : LA κ B D) (nu dt ab : ℝ) (G : Grid κ) (M : Mats B D) : Prop where
  helmholtzG : ∀ k b, -M.ADD (la.helmholtzG k b) + ((G.Ksq k + 2 / nu / ab / dt : ℝ) : ℂ) • M.BDD (la.helmholtzG k b) = b
  biharmonicU : ∀ k b, ((-nu * ab * dt / 2 : ℝ) : ℂ) • M.SBB (la.biharmonicU k b)
    + ((1 + nu * ab * dt * G.Ksq k : ℝ) : ℂ) • M.ABB (la.biharmonicU k b)
    + ((-(G.Ksq k + nu * ab * dt / 2 * G.K4 k) : ℝ) : ℂ) • M.BBB (la.biharmonicU k b) = b
  helmholtzU0 : ∀ b, -M.ADD0 (la.helmholtzU0 b) + ((2 / nu / ab / dt : ℝ) : ℂ) • M.BDD0 (la.helmholtzU0 b) = b
  tdmaD : ∀ b, M.BDD (la.tdmaD b) = b

/-- `H_hat0.mask_nyquist(mask)` (KMM.py:447-448): multiplication with a zero-one mask, if there is one. -/
def maskVec (mask : Option (κ → ℝ)) (H : Vec κ D) : Vec κ D :=
  match mask with
  | none => H
  | some m => ⟨fun k => (m k : ℂ) • H.c0 k, fun k => (m k : ℂ) • H.c1 k, fun k => (m k : ℂ) • H.c2 k⟩

/-- `hv` (KMM.py:453-455, KMMRK3.py:99-103). -/
noncomputable def hvOf (G : Grid κ) (M : Mats B D) (H : Vec κ D) (k : κ) : B :=
  -((G.Ksq k : ℂ) • M.BBD (H.c0 k)) - (Complex.I * G.X1 k) • M.CBD (H.c1 k) - (Complex.I * G.X2 k) • M.CBD (H.c2 k)

/-- `hg` (KMM.py:456, KMMRK3.py:104). -/
noncomputable def hgOf (G : Grid κ) (M : Mats B D) (H : Vec κ D) (k : κ) : D :=
  (Complex.I * G.X1 k) • M.BDD (H.c2 k) - (Complex.I * G.X2 k) • M.BDD (H.c1 k)

/-- `compute_vw` (KMM.py:466-470): `(u_hat[1], u_hat[2])`. -/
noncomputable def computeVW (G : Grid κ) (f g : κ → D) : (κ → D) × (κ → D) :=
  (fun k => (-Complex.I) • ((G.over1 k : ℂ) • f k - (G.over2 k : ℂ) • g k),
   fun k => (-Complex.I) • ((G.over2 k : ℂ) • f k + (G.over1 k : ℂ) • g k))

/-- Everything fixed during a run: `params.nu`, `params.dt`, the grid, the matrices, the mask, the convection
`conv(H_hat, u_hat, g_hat, …)` and the source `Sk[1, :, 0, 0]`. -/
structure Ctx (κ B D : Type*) [AddCommGroup B] [Module ℂ B] [AddCommGroup D] [Module ℂ D] where
  nu : ℝ
  dt : ℝ
  G : Grid κ
  M : Mats B D
  mask : Option (κ → ℝ)
  conv : Vel κ B D → (κ → D) → Vec κ D
  Sk : D

/-! ## KMM -/

/-- The arrays of the KMM context which survive from one call to the next. -/
@[ext] structure St (κ B D : Type*) where
  U : Vel κ B D
  g : κ → D
  H : Vec κ D
  H0 : Vec κ D
  H1 : Vec κ D
  U0 : Vel κ B D

/-- `assembleAB` (KMM.py:398-401). -/
noncomputable def assembleAB (H H1 : Vec κ D) : Vec κ D :=
  ⟨fun k => (1.5 : ℂ) • H.c0 k - (0.5 : ℂ) • H1.c0 k, fun k => (1.5 : ℂ) • H.c1 k - (0.5 : ℂ) • H1.c1 k,
   fun k => (1.5 : ℂ) • H.c2 k - (0.5 : ℂ) • H1.c2 k⟩

/-- `ComputeRHS` with `add_linear` (KMM.py:403-464); returns the context and the two right-hand sides. -/
noncomputable def computeRHS (c : Ctx κ B D) (s : St κ B D) : St κ B D × (κ → B) × (κ → D) :=
  let H := c.conv s.U s.g
  let H0 := maskVec c.mask (assembleAB H s.H1)
  let rhs0 := fun k => (c.dt : ℂ) • hvOf c.G c.M H0 k
    + biharmonicCoeff c.M (c.nu * c.dt / 2) (1 - c.nu * c.dt * c.G.Ksq k) (-(c.G.Ksq k - c.nu * c.dt / 2 * c.G.K4 k)) (s.U.u k)
  let rhs1 := fun k => ((2 / c.nu : ℝ) : ℂ) • hgOf c.G c.M H0 k + helmholtzCoeff c.M 1 (-(c.G.Ksq k - 2 / c.nu / c.dt)) (s.g k)
  ({ s with H := H, H0 := H0 }, rhs0, rhs1)

/-- `solve_linear` (KMM.py:472-509). The mean flow (entry `zero`) starts from `U_hat0`, not from `u_hat`. -/
noncomputable def solveLinear (c : Ctx κ B D) (la : LA κ B D) (s : St κ B D) (rhs0 : κ → B) (rhs1 : κ → D) : St κ B D :=
  let u := fun k => la.biharmonicU k (rhs0 k)
  let g := fun k => la.helmholtzG k (rhs1 k)
  let f := fun k => la.tdmaD (c.M.CDB (-u k))
  let vw := computeVW c.G f g
  let h0 := s.H0.c1 c.G.zero
  let h1 := s.H0.c2 c.G.zero
  let u0 := s.U0.v c.G.zero
  let u1 := s.U0.w c.G.zero
  let w := c.M.BDD0 (((2 / c.nu : ℝ) : ℂ) • h0) - ((2 / c.nu : ℝ) : ℂ) • c.Sk + c.M.ADD0 u0
    + ((2 / c.nu / c.dt : ℝ) : ℂ) • c.M.BDD0 u0
  let w' := c.M.BDD0 (((2 / c.nu : ℝ) : ℂ) • h1) + c.M.ADD0 u1 + c.M.BDD0 (((2 / c.nu / c.dt : ℝ) : ℂ) • u1)
  { s with
    U := ⟨Function.update u c.G.zero 0, Function.update vw.1 c.G.zero (la.helmholtzU0 w),
      Function.update vw.2 c.G.zero (la.helmholtzU0 w')⟩
    g := g }

/-- `integrate` (KMM.py:511-516). -/
noncomputable def integrate (c : Ctx κ B D) (la : LA κ B D) (s : St κ B D) : St κ B D :=
  solveLinear c la (computeRHS c s).1 (computeRHS c s).2.1 (computeRHS c s).2.2

/-- `end_of_tstep` (KMM.py:147-155). -/
def endOfTstep (s : St κ B D) : St κ B D := { s with U0 := s.U, H1 := s.H }

/-- One pass of the time loop (__init__.py:87-118) up to the point where a checkpoint is written: the solver step and the user's
`update`, which may change the velocity coefficients (as MKM.py:99-108 does). -/
noncomputable def advance (c : Ctx κ B D) (la : LA κ B D) (upd : Vel κ B D → Vel κ B D) (s : St κ B D) : St κ B D :=
  let s := integrate c la s
  { s with U := upd s.U }

/-- One whole pass of the time loop. -/
noncomputable def tick (c : Ctx κ B D) (la : LA κ B D) (upd : Vel κ B D → Vel κ B D) (s : St κ B D) : St κ B D :=
  endOfTstep (advance c la upd s)

/-- The wall-normal vorticity `1j*K[1]*U_hat[2] - 1j*K[2]*U_hat[1]` (MKM.py:62, 278). -/
noncomputable def vorticity (G : Grid κ) (U : Vel κ B D) (k : κ) : D :=
  (Complex.I * G.K1 k) • U.w k - (Complex.I * G.K2 k) • U.v k

/-- `init_from_file` (MKM.py:258-279) for KMM: `level0`, `level1` are the checkpointed `U_hat` and `U_hat0` (KMM.py:131-134).  The line
setting `g` before the convection is commented out in the demo. -/
noncomputable def initFromFile (c : Ctx κ B D) (s : St κ B D) (level0 level1 : Vel κ B D) : St κ B D :=
  let H := c.conv level1 s.g
  { s with U0 := level1, H := H, H1 := H, U := level0, g := vorticity c.G level0 }

/-- `get_divergence` (KMM.py:220-231), per wavenumber pair before the (linear) backward transform: `dudx + dvdy + dwdz`. -/
noncomputable def divergenceHat (G : Grid κ) (M : Mats B D) (tdmaD : D → D) (U : Vel κ B D) (k : κ) : D :=
  tdmaD (M.CDB (U.u k)) + (Complex.I * G.K1 k) • U.v k + (Complex.I * G.K2 k) • U.w k

/-! ## KMMRK3 -/

/-- `c.a` (KMMRK3.py:24). -/
noncomputable def rkA : Fin 3 → ℝ := ![8 / 15, 5 / 12, 3 / 4]

/-- `c.b` (KMMRK3.py:25). -/
noncomputable def rkB : Fin 3 → ℝ := ![0, -17 / 60, -5 / 12]

/-- The arrays of the KMMRK3 context which survive from one call to the next: `hv[0]`, `hg[0]`, `h1[0, 0]`, `h1[0, 1]` belong to the previous substep
(`hv[1]`, `hg[1]`, `h1[1]` are overwritten before they are used). -/
@[ext] structure St3 (κ B D : Type*) where
  U : Vel κ B D
  g : κ → D
  H : Vec κ D
  hv : κ → B
  hg : κ → D
  hm0 : D
  hm1 : D

/-- `ComputeRHS` with `add_linear` (KMMRK3.py:49-115). -/
noncomputable def computeRHS3 (c : Ctx κ B D) (rk : Fin 3) (s : St3 κ B D) : St3 κ B D × (κ → B) × (κ → D) :=
  let a := rkA rk
  let b := rkB rk
  let H := maskVec c.mask (c.conv s.U s.g)
  let hv1 := hvOf c.G c.M H
  let hg1 := hgOf c.G c.M H
  let rhs0 := fun k => (c.dt : ℂ) • ((a : ℂ) • hv1 k + (b : ℂ) • s.hv k)
    + biharmonicCoeff c.M (c.nu * (a + b) * c.dt / 2) (1 - c.nu * (a + b) * c.dt * c.G.Ksq k)
        (-(c.G.Ksq k - c.nu * (a + b) * c.dt / 2 * c.G.K4 k)) (s.U.u k)
  let rhs1 := fun k => ((2 / c.nu / (a + b) : ℝ) : ℂ) • ((a : ℂ) • hg1 k + (b : ℂ) • s.hg k)
    + helmholtzCoeff c.M 1 (-(c.G.Ksq k - 2 / c.nu / c.dt / (a + b))) (s.g k)
  ({ s with H := H, hv := hv1, hg := hg1 }, rhs0, rhs1)

/-- `solve_linear` (KMMRK3.py:117-167). -/
noncomputable def solveLinear3 (c : Ctx κ B D) (la : LA κ B D) (rk : Fin 3) (s : St3 κ B D) (rhs0 : κ → B) (rhs1 : κ → D) :
    St3 κ B D :=
  let a := rkA rk
  let b := rkB rk
  let u := fun k => la.biharmonicU k (rhs0 k)
  let g := fun k => la.helmholtzG k (rhs1 k)
  let u0 := s.U.v c.G.zero
  let u1 := s.U.w c.G.zero
  let f := fun k => la.tdmaD (0 - c.M.CDB (u k))
  let vw := computeVW c.G f g
  let h0 := c.M.BDD0 (s.H.c1 c.G.zero) - c.Sk
  let h1 := c.M.BDD0 (s.H.c2 c.G.zero)
  let beta := 2 / c.nu / (a + b)
  let w := (beta : ℂ) • ((a : ℂ) • h0 + (b : ℂ) • s.hm0) + c.M.ADD0 u0 + ((beta / c.dt : ℝ) : ℂ) • c.M.BDD0 u0
  let w' := (beta : ℂ) • ((a : ℂ) • h1 + (b : ℂ) • s.hm1) + c.M.ADD0 u1 + ((beta / c.dt : ℝ) : ℂ) • c.M.BDD0 u1
  { s with
    U := ⟨Function.update u c.G.zero 0, Function.update vw.1 c.G.zero (la.helmholtzU0 w),
      Function.update vw.2 c.G.zero (la.helmholtzU0 w')⟩
    g := g
    hm0 := h0
    hm1 := h1 }

/-- One pass of the loop in `integrate` (KMMRK3.py:169-174). -/
noncomputable def substep (c : Ctx κ B D) (la : Fin 3 → LA κ B D) (rk : Fin 3) (s : St3 κ B D) : St3 κ B D :=
  solveLinear3 c (la rk) rk (computeRHS3 c rk s).1 (computeRHS3 c rk s).2.1 (computeRHS3 c rk s).2.2

/-- `integrate` (KMMRK3.py:169-174). -/
noncomputable def integrate3 (c : Ctx κ B D) (la : Fin 3 → LA κ B D) (s : St3 κ B D) : St3 κ B D :=
  substep c la 2 (substep c la 1 (substep c la 0 s))

/-- One pass of the time loop; `end_of_tstep` is the one of spectralinit.py:56-62, which does nothing (KMMRK3.py:9). -/
noncomputable def tick3 (c : Ctx κ B D) (la : Fin 3 → LA κ B D) (upd : Vel κ B D → Vel κ B D) (s : St3 κ B D) : St3 κ B D :=
  let s := integrate3 c la s
  { s with U := upd s.U }

/-- `init_from_file` (MKM.py:258-279) for KMMRK3, which checkpoints `U_hat` only (KMMRK3.py:45). -/
noncomputable def initFromFile3 (c : Ctx κ B D) (s : St3 κ B D) (level0 : Vel κ B D) : St3 κ B D :=
  { s with U := level0, g := vorticity c.G level0 }

end SpectralDNS.Channel

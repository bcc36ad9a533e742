import Verif.Model.ChannelConv
import Verif.Model.ChebWall

/-!
# The channel solver KMMr: walls normal to the last axis

As `Model/Channel.lean` for KMM: one array entry per wavenumber pair `k : κ` (axes 0 and 1), coefficients along axis 2 in `D` (basis `ST`) or
`B` (basis `SB`); matrices, linear solvers and the wall-normal transforms are the same objects (`Mats`, `LA`, `Wall`).  Only the form `Vortex` of the
convection is modelled: the others call `LUsolve.Mult_CTD_3D_n`, which does not exist (C50), and `get_pressure` is not modelled.
-/

namespace SpectralDNS.KMMr

open SpectralDNS.Channel (Mats LA Vec maskVec helmholtzCoeff biharmonicCoeff assembleAB Wall bwdB bwdC bwdD fwdD ik)
open SpectralDNS.Periodic (Space cross1_3d RModes waves scaledWaves)

variable {κ B D C P Q : Type*} [DecidableEq κ] [AddCommGroup B] [Module ℂ B] [AddCommGroup D] [Module ℂ D] [AddCommGroup C] [Module ℂ C]

/-- `K[0]`, `K[1]` (KMMr.py:58), `Kx[0]`, `Kx[1]` (KMMr.py:84) and the entry `[0, 0]` of rank 0. -/
structure Grid (κ : Type*) where
  K0 : κ → ℝ
  K1 : κ → ℝ
  Kx0 : κ → ℝ
  Kx1 : κ → ℝ
  zero : κ

/-- `K2 = K[0]*K[0]+K[1]*K[1]` (KMMr.py:80). -/
def Grid.K2 (G : Grid κ) (k : κ) : ℝ := G.K0 k * G.K0 k + G.K1 k * G.K1 k

/-- `K4 = K2**2` (KMMr.py:81). -/
def Grid.K4 (G : Grid κ) (k : κ) : ℝ := G.K2 k ^ 2

open Classical in
/-- `K_over_K2[0]` (KMMr.py:85-87). -/
noncomputable def Grid.over0 (G : Grid κ) (k : κ) : ℝ := G.K0 k / (if G.K2 k = 0 then 1 else G.K2 k)

open Classical in
/-- `K_over_K2[1]` (KMMr.py:85-87). -/
noncomputable def Grid.over1 (G : Grid κ) (k : κ) : ℝ := G.K1 k / (if G.K2 k = 0 then 1 else G.K2 k)

/-- `U_hat`: `VFS = VectorSpace([FST, FST, FSB])` (KMMr.py:39). -/
@[ext] structure Vel (κ B D : Type*) where
  u0 : κ → D
  u1 : κ → D
  u2 : κ → B

/-- Everything fixed during a run; `Sk0` is `Sk[0, 0, 0]`. -/
structure Ctx (κ B D : Type*) [AddCommGroup B] [Module ℂ B] [AddCommGroup D] [Module ℂ D] where
  nu : ℝ
  dt : ℝ
  G : Grid κ
  M : Mats B D
  mask : Option (κ → ℝ)
  conv : Vel κ B D → (κ → D) → Vec κ D
  Sk0 : D

/-- The arrays of the context which survive from one call to the next. -/
@[ext] structure St (κ B D : Type*) where
  U : Vel κ B D
  g : κ → D
  H : Vec κ D
  H0 : Vec κ D
  H1 : Vec κ D
  U0 : Vel κ B D

/-- `compute_curl` (KMMr.py:243-261), called with `Kx` (KMMr.py:439). -/
noncomputable def computeCurl (W : Wall B D C Q) (T : Space κ P) (G : Grid κ) (U : Vel κ B D) (g : κ → D) : Fin 3 → Q → P → ℝ :=
  let dudz := bwdC W T fun k => W.ctd (U.u0 k)
  let dvdz := bwdC W T fun k => W.ctd (U.u1 k)
  let dwdy := ik G.Kx1 U.u2
  let dwdx := ik G.Kx0 U.u2
  ![bwdB W T dwdy - dvdz, bwdB W T (fun k => -dwdx k) + dudz, bwdD W T g]

/-- The `Vortex` form of `getConvection` (KMMr.py:388-396) with `Cross` (KMMr.py:235-241). -/
noncomputable def vortex (W : Wall B D C Q) (T : Space κ P) (G : Grid κ) (U : Vel κ B D) (g : κ → D) : Vec κ D :=
  let u : Fin 3 → Q → P → ℝ := ![bwdD W T U.u0, bwdD W T U.u1, bwdB W T U.u2]
  let Uc := cross1_3d 0 u (computeCurl W T G U g)
  ⟨fwdD W T (Uc 0), fwdD W T (Uc 1), fwdD W T (Uc 2)⟩

/-- `ComputeRHS` with `add_linear` (KMMr.py:399-462). -/
noncomputable def computeRHS (c : Ctx κ B D) (s : St κ B D) : St κ B D × (κ → B) × (κ → D) :=
  let H := c.conv s.U s.g
  let H0 := maskVec c.mask (assembleAB H s.H1)
  let hv := fun k => -((Complex.I * c.G.Kx0 k) • c.M.CBD (H0.c0 k)) - (Complex.I * c.G.Kx1 k) • c.M.CBD (H0.c1 k)
    - (c.G.K2 k : ℂ) • c.M.BBD (H0.c2 k)
  let hg := fun k => (Complex.I * c.G.Kx0 k) • c.M.BDD (H0.c1 k) - (Complex.I * c.G.Kx1 k) • c.M.BDD (H0.c0 k)
  let rhs0 := fun k => (c.dt : ℂ) • hv k
    + biharmonicCoeff c.M (c.nu * c.dt / 2) (1 - c.nu * c.dt * c.G.K2 k) (-(c.G.K2 k - c.nu * c.dt / 2 * c.G.K4 k)) (s.U.u2 k)
  let rhs1 := fun k => ((2 / c.nu : ℝ) : ℂ) • hg k + helmholtzCoeff c.M 1 (-(c.G.K2 k - 2 / c.nu / c.dt)) (s.g k)
  ({ s with H := H, H0 := H0 }, rhs0, rhs1)

/-- `compute_vw` (KMMr.py:463-466): `(u_hat[0], u_hat[1])`. -/
noncomputable def computeVW (G : Grid κ) (f g : κ → D) : (κ → D) × (κ → D) :=
  (fun k => (-Complex.I) • ((G.over0 k : ℂ) • f k - (G.over1 k : ℂ) • g k),
   fun k => (-Complex.I) • ((G.over1 k : ℂ) • f k + (G.over0 k : ℂ) • g k))

/-- `solve_linear` (KMMr.py:469-507).  `f_hat` starts from a zeroed work array. -/
noncomputable def solveLinear (c : Ctx κ B D) (la : LA κ B D) (s : St κ B D) (rhs0 : κ → B) (rhs1 : κ → D) : St κ B D :=
  let u2 := fun k => la.biharmonicU k (rhs0 k)
  let g := fun k => la.helmholtzG k (rhs1 k)
  let f := fun k => la.tdmaD (0 - c.M.CDB (u2 k))
  let vw := computeVW c.G f g
  let h0 := s.H0.c0 c.G.zero
  let h1 := s.H0.c1 c.G.zero
  let u0 := s.U0.u0 c.G.zero
  let u1 := s.U0.u1 c.G.zero
  let w := c.M.BDD0 (((2 / c.nu : ℝ) : ℂ) • h0) - ((2 / c.nu : ℝ) : ℂ) • c.Sk0 + c.M.ADD0 u0
    + ((2 / c.nu / c.dt : ℝ) : ℂ) • c.M.BDD0 u0
  let w' := c.M.BDD0 (((2 / c.nu : ℝ) : ℂ) • h1) + c.M.ADD0 u1 + c.M.BDD0 (((2 / c.nu / c.dt : ℝ) : ℂ) • u1)
  { s with
    U := ⟨Function.update vw.1 c.G.zero (la.helmholtzU0 w), Function.update vw.2 c.G.zero (la.helmholtzU0 w'),
      Function.update u2 c.G.zero 0⟩
    g := g }

/-- `integrate` (KMMr.py:509-514). -/
noncomputable def integrate (c : Ctx κ B D) (la : LA κ B D) (s : St κ B D) : St κ B D :=
  solveLinear c la (computeRHS c s).1 (computeRHS c s).2.1 (computeRHS c s).2.2

/-- `end_of_tstep` (KMMr.py:148-156). -/
def endOfTstep (s : St κ B D) : St κ B D := { s with U0 := s.U, H1 := s.H }

/-- One pass of the time loop (__init__.py:87-118) with the user's `update`. -/
noncomputable def tick (c : Ctx κ B D) (la : LA κ B D) (upd : Vel κ B D → Vel κ B D) (s : St κ B D) : St κ B D :=
  let s := integrate c la s
  endOfTstep { s with U := upd s.U }

/-- `get_divergence` (KMMr.py:221-232) per wavenumber pair before the backward transform. -/
noncomputable def divergenceHat (G : Grid κ) (M : Mats B D) (tdmaD : D → D) (U : Vel κ B D) (k : κ) : D :=
  (Complex.I * G.K0 k) • U.u0 k + (Complex.I * G.K1 k) • U.u1 k + tdmaD (M.CDB (U.u2 k))

/-- `Kx = FST.local_wavenumbers(scaled=True, eliminate_highest_freq=True)` (KMMr.py:84): zero for the Nyquist wavenumber of an even axis. -/
noncomputable def filteredWaves (N : Fin 2 → ℕ) (L : Fin 2 → ℝ) (i : Fin 2) (k : RModes N) : ℝ :=
  if 2 * waves N i k = N i ∨ 2 * waves N i k = -(N i : ℤ) then 0 else scaledWaves N L i k

/-- `K` and `Kx` (KMMr.py:58, 84) for a box with periodic sides `L 0`, `L 1` and `N 0`, `N 1` points along them. -/
noncomputable def waveGrid (N : Fin 2 → ℕ) (L : Fin 2 → ℝ) (hN : ∀ i, 0 < N i) : Grid (RModes N) :=
  ⟨scaledWaves N L 0, scaledWaves N L 1, filteredWaves N L 0, filteredWaves N L 1, (Channel.waveGrid N L hN).zero⟩

end SpectralDNS.KMMr

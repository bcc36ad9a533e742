import Verif.Model.ChebWall
import Verif.Model.Coupled
import Verif.Model.Utilities
import Verif.Model.Fourier

/-!
# demo/MKM.py: the turbulent channel, start and flux control

`n + 4` points between the walls, `N 0 x N 1` along them, a box with periodic sides `L 0`, `L 1`.  Plotting, sampling and energy output are
not modelled, nor rounding errors.
-/

namespace SpectralDNS.Channel

open Polynomial Periodic

variable {N : Fin 2 → ℕ}

/-- The quadrature of `utilities.dx` for the points of the wall-normal basis (utilities/__init__.py:96-114). -/
noncomputable def dxRule (n : ℕ) : Quad → (ℕ → ℝ) → ℝ
  | .GC => Utilities.dxGC (n + 4)
  | .GL => Utilities.dxGL (n + 2)

/-- `dx(u, FST)` (utilities/__init__.py:82-120) for an array of the channel. -/
noncomputable def dxChannel (q : Quad) (n : ℕ) (L : Fin 2 → ℝ) {R : Type*} [Fintype R] (blocks : R → Utilities.Block (n + 4) (Periodic.Grid N))
    (u : Fin (n + 4) → Periodic.Grid N → ℝ) : ℝ :=
  Utilities.dx (dxRule n q) (L 0 / N 0 * (L 1 / N 1)) blocks u

/-- The flux control of `update` (MKM.py:98-108; `params.tstep % 1 == 0` always holds) on the array `U_hat[1]`: backward transform, `dx`,
and the first coefficient of the mean is changed by `(flux - beta)/(prod(params.L)*4/3)`; `L0` is `params.L[0]`, 2 in the demo. -/
noncomputable def fluxControl (q : Quad) (n : ℕ) (L0 : ℝ) (L : Fin 2 → ℝ) (zero : RModes N) {R : Type*} [Fintype R]
    (blocks : R → Utilities.Block (n + 4) (Periodic.Grid N)) (flux : ℝ) (v : RModes N → Fin (n + 2) → ℂ) : RModes N → Fin (n + 2) → ℂ :=
  let beta := dxChannel q n L blocks (bwdD (chebWall q n) (rspace N N) v)
  Function.update v zero (Function.update (v zero) 0 (v zero 0 + (((flux - beta) / (L0 * L 0 * L 1 * 4 / 3) : ℝ) : ℂ)))

/-- `update` (MKM.py:90-108) as called by the loop with KMM or KMMRK3. -/
noncomputable def updateMKM (q : Quad) (n : ℕ) (L0 : ℝ) (L : Fin 2 → ℝ) (zero : RModes N) {R : Type*} [Fintype R]
    (blocks : R → Utilities.Block (n + 4) (Periodic.Grid N)) (flux : ℝ) (U : Vel (RModes N) (Fin n → ℂ) (Fin (n + 2) → ℂ)) :
    Vel (RModes N) (Fin n → ℂ) (Fin (n + 2) → ℂ) :=
  { U with v := fluxControl q n L0 L zero blocks flux U.v }

/-- `update` (MKM.py:90-108) as called by the loop with Coupled or CoupledRK3. -/
noncomputable def updateMKMC (q : Quad) (n : ℕ) (L0 : ℝ) (L : Fin 2 → ℝ) (zero : RModes N) {R : Type*} [Fintype R]
    (blocks : R → Utilities.Block (n + 4) (Periodic.Grid N)) (flux : ℝ) (U : Coupled.Vel (RModes N) (Fin (n + 2) → ℂ)) :
    Coupled.Vel (RModes N) (Fin (n + 2) → ℂ) :=
  { U with c1 := fluxControl q n L0 L zero blocks flux U.c1 }

/-- `Y` (MKM.py:36): the distance to the nearest wall. -/
noncomputable def wallDist (x : ℝ) : ℝ := if x < 0 then 1 + x else 1 - x

/-- `U[1]` after MKM.py:36-54: the parabola and a perturbation with the random factors `dev[:, 0:1, :]`; `L` are the periodic sides
(`params.L[1]`, `params.L[2]`). -/
noncomputable def mkmU1 (q : Quad) (n : ℕ) (L : Fin 2 → ℝ) (nu Retau : ℝ) (hN : ∀ i, 0 < N i) (dev : Fin (n + 4) → Periodic.Grid N → ℝ)
    (j : Fin (n + 4)) (p : Periodic.Grid N) : ℝ :=
  let Y := wallDist (quadPoint q (n + 4) j)
  let utau := nu * Retau
  let Um := 46.9091 * utau
  let Xplus := Y * Retau
  let Zplus := L 1 * ((p 1 : ℕ) : ℝ) / N 1 * Retau
  let duplus := Um * 0.2 / utau
  let betaplus := L 1 / 100
  let sigma := 0.00055
  Um * (Y - 0.5 * Y ^ 2) + utau * duplus / 2.0 * Xplus / 40 * Real.exp (-sigma * Xplus ^ 2 + 0.5) * Real.cos (betaplus * Zplus)
    * dev j (Function.update p 0 ⟨0, hN 0⟩)

/-- `U[2]` after MKM.py:36-55, with the random factors `dev[:, :, 0:1]`. -/
noncomputable def mkmU2 (q : Quad) (n : ℕ) (L : Fin 2 → ℝ) (nu Retau : ℝ) (hN : ∀ i, 0 < N i) (dev : Fin (n + 4) → Periodic.Grid N → ℝ)
    (j : Fin (n + 4)) (p : Periodic.Grid N) : ℝ :=
  let Y := wallDist (quadPoint q (n + 4) j)
  let utau := nu * Retau
  let Um := 46.9091 * utau
  let Xplus := Y * Retau
  let Yplus := L 0 * ((p 0 : ℕ) : ℝ) / N 0 * Retau
  let alfaplus := L 0 / 200
  let sigma := 0.00055
  let epsilon := Um / 200
  epsilon * Real.sin (alfaplus * Yplus) * Xplus * Real.exp (-sigma * Xplus ^ 2) * dev j (Function.update p 1 ⟨0, hN 1⟩)

/-- `U_hat.mask_nyquist(context.mask)` (MKM.py:57-58). -/
def maskArr {κ D : Type*} [AddCommGroup D] [Module ℂ D] (mask : Option (κ → ℝ)) (a : κ → D) : κ → D :=
  match mask with
  | none => a
  | some m => fun k => (m k : ℂ) • a k

/-- MKM.py:56-60 on one component of the Dirichlet space: forward, mask, backward, forward. -/
noncomputable def settle (q : Quad) (n : ℕ) (mask : Option (RModes N → ℝ)) (u : Fin (n + 4) → Periodic.Grid N → ℝ) : RModes N → Fin (n + 2) → ℂ :=
  fwdD (chebWall q n) (rspace N N) (bwdD (chebWall q n) (rspace N N) (maskArr mask (fwdD (chebWall q n) (rspace N N) u)))

/-- `U_hat` after MKM.py:31-60.  `U[0] = 0`, so its (linear) transform to the biharmonic space is zero. -/
noncomputable def mkmVel (q : Quad) (n : ℕ) (L : Fin 2 → ℝ) (nu Retau : ℝ) (hN : ∀ i, 0 < N i) (mask : Option (RModes N → ℝ))
    (dev : Fin (n + 4) → Periodic.Grid N → ℝ) : Vel (RModes N) (Fin n → ℂ) (Fin (n + 2) → ℂ) where
  u := fun _ => 0
  v := settle q n mask (mkmU1 q n L nu Retau hN dev)
  w := settle q n mask (mkmU2 q n L nu Retau hN dev)

/-- `initialize` (MKM.py:31-79) with KMM; `s` is the context as created. -/
noncomputable def initMKM {n : ℕ} (c : Ctx (RModes N) (Fin n → ℂ) (Fin (n + 2) → ℂ)) (q : Quad) (L : Fin 2 → ℝ) (Retau : ℝ) (hN : ∀ i, 0 < N i)
    (dev : Fin (n + 4) → Periodic.Grid N → ℝ) (s : St (RModes N) (Fin n → ℂ) (Fin (n + 2) → ℂ)) : St (RModes N) (Fin n → ℂ) (Fin (n + 2) → ℂ) :=
  let U := mkmVel q n L c.nu Retau hN c.mask dev
  let g := vorticity c.G U
  let H := c.conv U g
  { s with U := U, g := g, U0 := U, H := H, H1 := H }

/-- `initialize` (MKM.py:31-79) with KMMRK3. -/
noncomputable def initMKM3 {n : ℕ} (c : Ctx (RModes N) (Fin n → ℂ) (Fin (n + 2) → ℂ)) (q : Quad) (L : Fin 2 → ℝ) (Retau : ℝ) (hN : ∀ i, 0 < N i)
    (dev : Fin (n + 4) → Periodic.Grid N → ℝ) (s : St3 (RModes N) (Fin n → ℂ) (Fin (n + 2) → ℂ)) : St3 (RModes N) (Fin n → ℂ) (Fin (n + 2) → ℂ) :=
  let U := mkmVel q n L c.nu Retau hN c.mask dev
  { s with U := U, g := vorticity c.G U }

end SpectralDNS.Channel

import Verif.Model.Demos
import Mathlib.Analysis.Complex.Trigonometric

/-!
# Starting fields of further demos: KelvinHelmholtz.py, KelvinHelmoltzBoussinesq.py, Vortices2D.py, Vortices.py

Plotting and printing are not modelled; `X` is the mesh of `Model/Demos.lean`.
-/

namespace SpectralDNS.Demos

open Periodic

variable {N : Fin 2 → ℕ}

/-- `U[0]` (demo/KelvinHelmholtz.py:7-13): the four slices of the second axis. -/
noncomputable def khU0 (L : Fin 2 → ℝ) (U1 U2 delta : ℝ) (x : Grid N) : ℝ :=
  let Um := 0.5 * (U1 - U2)
  let y := mesh N L 1 x
  let j : ℕ := x 1
  if j < N 1 / 4 then U1 - Um * Real.exp ((y - 0.5 * Real.pi) / delta)
  else if j < N 1 / 2 then U2 + Um * Real.exp (-1.0 * (y - 0.5 * Real.pi) / delta)
  else if j < 3 * N 1 / 4 then U2 + Um * Real.exp ((y - 1.5 * Real.pi) / delta)
  else U1 - Um * Real.exp (-1.0 * (y - 1.5 * Real.pi) / delta)

/-- `U[1] = A*sin(2*X[0])` (demo/KelvinHelmholtz.py:9, demo/KelvinHelmoltzBoussinesq.py:9). -/
noncomputable def khU1 (L : Fin 2 → ℝ) (A : ℝ) (x : Grid N) : ℝ := A * Real.sin (2 * mesh N L 0 x)

/-- demo/KelvinHelmholtz.py:15-22 `initialize` after the arrays are filled: transform, projection, mean set to zero (entry `[0, 0]`), mask. -/
noncomputable def khSettle (K : Fin 2 → RModes N → ℝ) (U : PArr 2 (Grid N)) : SArr 2 (RModes N) :=
  let U_hat : SArr 2 (RModes N) := fun i => (rspace N N).forward (U i)
  let U_hat : SArr 2 (RModes N) := fun i k => U_hat i k - (K 0 k * U_hat 0 k + K 1 k * U_hat 1 k) * (K_over_K2 K i k : ℂ)
  let U_hat : SArr 2 (RModes N) := fun i k => if ∀ j, (k j : ℕ) = 0 then 0 else U_hat i k
  maskNyquist (some (nyquistMask N)) U_hat

/-- demo/KelvinHelmholtz.py:5-22 `initialize`. -/
noncomputable def khInit (L : Fin 2 → ℝ) (U1 U2 delta A : ℝ) : SArr 2 (RModes N) :=
  khSettle (scaledWaves N L) ![khU0 L U1 U2 delta, khU1 L A]

/-- `U[0]` (demo/KelvinHelmoltzBoussinesq.py:11-12). -/
noncomputable def bqU0 (L : Fin 2 → ℝ) (delta : ℝ) (x : Grid N) : ℝ :=
  let y := mesh N L 1 x
  if (x 1 : ℕ) < N 1 / 2 then Real.tanh ((y - 0.5 * Real.pi) / delta) else -Real.tanh ((y - 1.5 * Real.pi) / delta)

/-- `rho` (demo/KelvinHelmoltzBoussinesq.py:10, 13-15). -/
noncomputable def bqRho (L : Fin 2 → ℝ) (delta rho1 rho2 : ℝ) (x : Grid N) : ℝ :=
  let rho0 := 0.5 * (rho1 + rho2)
  let y := mesh N L 1 x
  (if (x 1 : ℕ) < N 1 / 2 then 2.0 + Real.tanh ((y - 0.5 * Real.pi) / delta) else 2.0 - Real.tanh ((y - 1.5 * Real.pi) / delta)) - rho0

/-- demo/KelvinHelmoltzBoussinesq.py:5-17 `initialize`: the velocity and the density of `Ur_hat`. -/
noncomputable def bqInit (L : Fin 2 → ℝ) (A delta rho1 rho2 : ℝ) : SArr 2 (RModes N) × (RModes N → ℂ) :=
  ((rspace N N).vforward ![bqU0 L delta, khU1 L A], (rspace N N).forward (bqRho L delta rho1 rho2))

/-- The three Gaussian vortices (demo/Vortices2D.py:10-12, demo/Vortices.py:11-13) as a function of two coordinates. -/
noncomputable def vortexFun (X Y : ℝ) : ℝ :=
  Real.exp (-((X - Real.pi) ^ 2 + (Y - Real.pi + Real.pi / 4) ^ 2) / 0.2)
    + Real.exp (-((X - Real.pi) ^ 2 + (Y - Real.pi - Real.pi / 4) ^ 2) / 0.2)
    - 0.5 * Real.exp (-((X - Real.pi - Real.pi / 4) ^ 2 + (Y - Real.pi - Real.pi / 4) ^ 2) / 0.4)

/-- demo/Vortices2D.py:13-17 `initialize` for the array `w`: `U_hat`. -/
noncomputable def fromVorticity (K : Fin 2 → RModes N → ℝ) (w : Grid N → ℝ) : SArr 2 (RModes N) :=
  let T := rspace N N
  let w_hat := T.forward w
  let U : PArr 2 (Grid N) := ![T.backward fun k => Complex.I * K_over_K2 K 1 k * w_hat k, T.backward fun k => -Complex.I * K_over_K2 K 0 k * w_hat k]
  T.vforward U

/-- demo/Vortices2D.py:9-17 `initialize`. -/
noncomputable def vortices2DInit (L : Fin 2 → ℝ) : SArr 2 (RModes N) :=
  fromVorticity (scaledWaves N L) fun x => vortexFun (mesh N L 0 x) (mesh N L 1 x)

/-- The coefficients of `stream` (demo/Vortices2D.py:59-65 `update_components`); `w` is the previous content of `W_hat`, which `get_curl`
overwrites (solvers/NS2D.py:19-24). -/
noncomputable def streamHat (K : Fin 2 → RModes N → ℝ) (w : RModes N → ℂ) (U_hat : SArr 2 (RModes N)) : RModes N → ℂ :=
  fun k => -cross2_2d w K U_hat k / ((if K2 K k = 0 then 1 else K2 K k : ℝ) : ℂ)

variable {N₃ : Fin 3 → ℕ}

/-- demo/Vortices.py:5-15 `initialize`: `W_hat`; `noise` is what `random.randn` returns, used if `init == 'random'` (the default). -/
noncomputable def vorticesInit (L : Fin 3 → ℝ) (init : String) (noise : PArr 3 (Grid N₃)) : SArr 3 (RModes N₃) :=
  let curl : PArr 3 (Grid N₃) :=
    if init = "random" then fun i x => 0.3 * noise i x
    else ![fun x => vortexFun (mesh N₃ L 1 x) (mesh N₃ L 2 x), fun _ => 0, fun _ => 0]
  (rspace N₃ N₃).vforward curl

/-- demo/Vortices.py:17-26 `set_source`. -/
noncomputable def vorticesSource (L : Fin 3 → ℝ) (init : String) : SArr 3 (RModes N₃) :=
  let f : ℝ → ℝ → ℝ := fun X Y =>
    100 * Real.exp (-((X - Real.pi) ^ 2 + (Y - Real.pi + Real.pi / 4) ^ 2) / 0.01)
      + 100 * Real.exp (-((X - Real.pi) ^ 2 + (Y - Real.pi - Real.pi / 4) ^ 2) / 0.01)
      - 0.5 * 100 * Real.exp (-((X - Real.pi - Real.pi / 4) ^ 2 + (Y - Real.pi - Real.pi / 4) ^ 2) / 0.04)
  let U : PArr 3 (Grid N₃) := if init = "random" then ![fun x => f (mesh N₃ L 1 x) (mesh N₃ L 2 x), fun _ => 0, fun _ => 0] else fun _ _ => 0
  (rspace N₃ N₃).vforward U

end SpectralDNS.Demos

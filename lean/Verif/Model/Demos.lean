import Verif.Model.Fourier
import Mathlib.Analysis.SpecialFunctions.Trigonometric.Basic

/-!
# Initial states and diagnostics of the Taylor-Green demos: demo/TG.py, demo/TG2D.py, demo/TGMHD.py

Sums over ranks (`comm.reduce`) are sums over the whole grid.  Plotting and printing are not modelled.
-/

namespace SpectralDNS.Demos

open Periodic

variable {n : ℕ} {ι X : Type*} {d : ℕ}

/-- solvers/NS.py:101-104 `set_velocity`. -/
def set_velocity (T : Space ι X) (U : PArr d X) : SArr d ι := T.vforward U

/-- solvers/NS.py:91-94 `get_velocity`. -/
def get_velocity (T : Space ι X) (U_hat : SArr d ι) : PArr d X := T.vbackward U_hat

/-- The mesh `X` (solvers/NS.py:37 `T.local_mesh(True)`): `X[i] = L[i]*j/N[i]`. -/
noncomputable def mesh (N : Fin n → ℕ) (L : Fin n → ℝ) (i : Fin n) (x : Grid N) : ℝ := L i * ((x i : ℕ) : ℝ) / (N i : ℝ)

/-- demo/TG.py:25-27 and 32-34, demo/TGMHD.py:6-8. -/
noncomputable def tg3 (X : Fin 3 → ℝ) : Fin 3 → ℝ :=
  ![Real.sin (X 0) * Real.cos (X 1) * Real.cos (X 2), -Real.cos (X 0) * Real.sin (X 1) * Real.cos (X 2), 0]

/-- demo/TGMHD.py:9-11. -/
noncomputable def tgB (X : Fin 3 → ℝ) : Fin 3 → ℝ :=
  ![Real.sin (X 0) * Real.sin (X 1) * Real.cos (X 2), Real.cos (X 0) * Real.cos (X 1) * Real.cos (X 2), 0]

/-- demo/TG2D.py:13-14. -/
noncomputable def tg2 (X : Fin 2 → ℝ) : Fin 2 → ℝ := ![Real.sin (X 0) * Real.cos (X 1), -Real.sin (X 1) * Real.cos (X 0)]

/-- A field given by its values as a function of the coordinates. -/
noncomputable def onMesh {m d : ℕ} (N : Fin m → ℕ) (L : Fin m → ℝ) (f : (Fin m → ℝ) → Fin d → ℝ) : PArr d (Grid N) :=
  fun i x => f (fun j => mesh N L j x) i

/-- demo/TG.py:23-28 `initialize1` (NS): `U_hat`. -/
noncomputable def initialize1 (N : Fin 3 → ℕ) (L : Fin 3 → ℝ) : SArr 3 (RModes N) := set_velocity (rspace N N) (onMesh N L tg3)

/-- demo/TG.py:30-36 `initialize2` (VV): `W_hat`; `w` is its previous content. -/
noncomputable def initialize2 (N : Fin 3 → ℕ) (L : Fin 3 → ℝ) (w : SArr 3 (RModes N)) : SArr 3 (RModes N) :=
  cross2_3d w (scaledWaves N L) (set_velocity (rspace N N) (onMesh N L tg3))

/-- demo/TGMHD.py:4-14 `initialize`: `(U_hat, B_hat)`. -/
noncomputable def initializeMHD (N : Fin 3 → ℕ) (L : Fin 3 → ℝ) : SArr 3 (RModes N) × SArr 3 (RModes N) :=
  (set_velocity (rspace N N) (onMesh N L tg3), set_velocity (rspace N N) (onMesh N L tgB))

/-- demo/TG2D.py:12-18 `initialize`: `U_hat`. -/
noncomputable def initialize2D (N : Fin 2 → ℕ) (L : Fin 2 → ℝ) : SArr 2 (RModes N) := set_velocity (rspace N N) (onMesh N L tg2)

/-- demo/TG.py:97-98: `sum(U*U)/prod(N)/2`. -/
noncomputable def gridEnergy {m d : ℕ} (N : Fin m → ℕ) (U : PArr d (Grid N)) : ℝ :=
  (∑ i, ∑ x, U i x * U i x) / (∏ j, (N j : ℝ)) / 2

/-- demo/TG2D.py:44: `sum(U*U)*dx[0]*dx[1]/L[0]/L[1]/2` with `dx = L/N` (config.py:113). -/
noncomputable def gridEnergy2D {d : ℕ} (N : Fin 2 → ℕ) (L : Fin 2 → ℝ) (U : PArr d (Grid N)) : ℝ :=
  (∑ i, ∑ x, U i x * U i x) * (L 0 / N 0) * (L 1 / N 1) / L 0 / L 1 / 2

/-- demo/TG2D.py:45-46: the field compared with. -/
noncomputable def tg2Ref (nu t : ℝ) (X : Fin 2 → ℝ) : Fin 2 → ℝ :=
  ![-Real.sin (X 1) * Real.cos (X 0) * Real.exp (-2 * nu * t), Real.sin (X 0) * Real.cos (X 1) * Real.exp (-2 * nu * t)]

/-- shenfun's `energy_fourier` (demo/TG.py:101): the weighted sum of squares over the half spectrum. -/
noncomputable def energyFourier (N : Fin (n + 1) → ℕ) (u : SArr d (RModes N)) : ℝ := ∑ k, rweight N k * ∑ i, Complex.normSq (u i k)

end SpectralDNS.Demos

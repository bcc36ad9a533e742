import Verif.Spec.MHD
import Verif.Spec.ODE
import Mathlib.Analysis.SpecialFunctions.Trigonometric.Basic

/-!
# Specification of the flow that the stand-alone script computes

The script works on the grid with `N` points per direction of the box of side `2 pi`.  Nothing of its model is used here: `p k i` is the `i`-th
wavenumber of entry `k` of the array of coefficients.
-/

namespace SpectralDNS.Spec.Script

open Complex

/-- Coordinates of the grid points. -/
noncomputable def point (N : ℕ) (x : Fin N × Fin N × Fin N) : Fin 3 → ℝ :=
  ![2 * Real.pi * (x.1 : ℕ) / N, 2 * Real.pi * (x.2.1 : ℕ) / N, 2 * Real.pi * (x.2.2 : ℕ) / N]

variable {ι : Type*} [Fintype ι]

/-- `exp(i p.x)`. -/
noncomputable def wave (N : ℕ) (p : Fin 3 → ℤ) (x : Fin N × Fin N × Fin N) : ℂ := exp (I * ∑ i, (p i : ℂ) * (point N x i : ℂ))

/-- Coefficients of a grid function (numpy's normalisation). -/
noncomputable def coeffs (N : ℕ) (p : ι → Fin 3 → ℤ) (f : Fin N × Fin N × Fin N → ℝ) (k : ι) : ℂ := ∑ x, (f x : ℂ) * wave N (-p k) x

/-- How many modes an entry stands for: two, itself and its conjugate, unless the last wavenumber is `0` or `N/2`. -/
noncomputable def multiplicity (N : ℕ) (q : Fin 3 → ℤ) : ℝ := if q 2 = 0 ∨ 2 * q 2 = N then 1 else 2

/-- Values of a sum of waves. -/
noncomputable def values (N : ℕ) (p : ι → Fin 3 → ℤ) (c : ι → ℂ) (x : Fin N × Fin N × Fin N) : ℝ :=
  1 / (N : ℝ) ^ 3 * ∑ k, multiplicity N (p k) * (c k * wave N (p k) x).re

/-- The 2/3-rule: `|p_i| < 2/3 (N/2 + 1)`. -/
def Kept (N : ℕ) (q : Fin 3 → ℤ) : Prop := ∀ i, 3 * |q i| < 2 * (N / 2 + 1 : ℕ)

open Classical in
/-- Navier-Stokes: `du/dt = P F(u x curl u) - nu |p|^2 u`, the nonlinear term truncated by the 2/3-rule. -/
noncomputable def navierStokes (N : ℕ) (nu : ℝ) (p : ι → Fin 3 → ℤ) (u : Fin 3 → ι → ℂ) : Fin 3 → ι → ℂ := fun i k =>
  leray (fun i k => (p k i : ℝ)) (fun j k => if Kept N (p k) then lamb (coeffs N p) (values N p) (fun i k => (p k i : ℝ)) u j k else 0) i k
    - (nu * ∑ j, (p k j : ℝ) ^ 2 : ℝ) * u i k

/-- Mean kinetic energy of a grid velocity. -/
noncomputable def meanEnergy (N : ℕ) (U : Fin 3 → Fin N × Fin N × Fin N → ℝ) : ℝ := 1 / 2 * ∑ i, (∑ x, U i x ^ 2) / (N : ℝ) ^ 3

/-- The Taylor-Green vortex. -/
noncomputable def taylorGreen (X : Fin 3 → ℝ) : Fin 3 → ℝ :=
  ![Real.sin (X 0) * Real.cos (X 1) * Real.cos (X 2), -(Real.cos (X 0) * Real.sin (X 1) * Real.cos (X 2)), 0]

end SpectralDNS.Spec.Script

import Verif.Model.LegPoisson
import Mathlib.MeasureTheory.Integral.IntervalIntegral.Basic

/-!
# The Helmholtz solver of sandbox/leg_poisson.py

`-u'' + kx^2 u = f`, `u(1) = u(-1) = 0`, with the basis `L_k - L_{k+2}` of Legendre polynomials and Gauss quadrature.  `n` is the number of points (script line 44,
64; here any), and `kx` and the values `fj` are any numbers.  Arithmetic is exact.  The names of the script are kept.

The modules `spectralDNS.shen.*` that the script imports are not in the repository, and line 46 uses a name which the script does not import.  The function
space and the matrices are modelled by the script's own description of them (lines 9-28): the basis and the integrals over (-1, 1); `linalg.solve` by its
documentation.  The points and weights are arguments.  sympy is left out.
-/

namespace SpectralDNS.Leg.Shen

open Polynomial Finset Sandbox

/-- The basis function `phi_k` (line 18). -/
noncomputable def basis (k : ℕ) : ℝ[X] := legendre k - legendre (k + 2)

/-- `M` (line 52). -/
noncomputable def M (r c : ℕ) : ℝ := ∫ x in (-1 : ℝ)..1, (basis r).eval x * (basis c).eval x

/-- `K` (line 55). -/
noncomputable def K (r c : ℕ) : ℝ := ∫ x in (-1 : ℝ)..1, (derivative (basis r)).eval x * (derivative (basis c)).eval x

/-- `ST.scalar_product(fj, f_hat)` (lines 62-63), its entries before the last two. -/
noncomputable def f_hat (n : ℕ) (pts w fj : ℕ → ℝ) (r : ℕ) : ℝ := ∑ j ∈ range n, w j * (basis r).eval (pts j) * fj j

/-- `AA` (lines 66-68). -/
noncomputable def AA (kx : ℝ) (r c : ℕ) : ℝ := K r c + kx ^ 2 * M r c

/-- `u_hat` (lines 69-70). -/
noncomputable def u_hat (n : ℕ) (pts w : ℕ → ℝ) (kx : ℝ) (fj : ℕ → ℝ) (k : ℕ) : ℝ :=
  if k < n - 2 then linsolve (n - 2) (AA kx) (f_hat n pts w fj) k else 0

/-- `uq` (lines 72-73): the expansion in the `n-2` basis functions at the points. -/
noncomputable def uq (n : ℕ) (pts w : ℕ → ℝ) (kx : ℝ) (fj : ℕ → ℝ) (j : ℕ) : ℝ :=
  ∑ k ∈ range (n - 2), (basis k).eval (pts j) * u_hat n pts w kx fj k

end SpectralDNS.Leg.Shen

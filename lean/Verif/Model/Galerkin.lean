import Verif.Model.Channel
import Mathlib.RingTheory.Polynomial.Chebyshev
import Mathlib.Analysis.SpecialFunctions.Trigonometric.Basic
import Mathlib.Algebra.Polynomial.AlgebraMap
import Mathlib.Algebra.Polynomial.Eval.SMul
import Mathlib.LinearAlgebra.Matrix.ToLin

/-!
# The Chebyshev-Galerkin matrices of the channel solvers: KMM.py:26-28, 105-120

`N[0] = n + 4`.  shenfun's `inner_product((test, 0), (trial, d))` is the quadrature of the `d`-th derivative of the trial functions times
the test functions (shenfun itself is not modelled; its closed formulas for the entries are meant to equal these sums).
-/

namespace SpectralDNS.Channel

open Polynomial Polynomial.Chebyshev Real

/-- `params.Dquad`, `params.Bquad` (config.py:272-275): Chebyshev-Gauss or Chebyshev-Gauss-Lobatto. -/
inductive Quad
  | GC
  | GL
  deriving DecidableEq

/-- The quadrature points, `N` of them. -/
noncomputable def quadPoint : Quad → ℕ → ℕ → ℝ
  | .GC, N, j => cos (π * (j + 1 / 2) / N)
  | .GL, N, j => cos (π * j / (N - 1))

/-- The quadrature weights. -/
noncomputable def quadWeight : Quad → ℕ → ℕ → ℝ
  | .GC, N, _ => π / N
  | .GL, N, j => if j = 0 ∨ j = N - 1 then π / (2 * (N - 1)) else π / (N - 1)

/-- Quadrature of a polynomial with the Chebyshev weight. -/
noncomputable def quadrature (q : Quad) (N : ℕ) : ℝ[X] →ₗ[ℝ] ℝ := ∑ j ∈ Finset.range N, quadWeight q N j • leval (quadPoint q N j)

/-- Dirichlet basis `ST` (KMM.py:26): `T_j - T_{j+2}`, `j < N-2`. -/
noncomputable def phi (j : ℕ) : ℝ[X] := T ℝ (j : ℤ) - T ℝ ((j + 2 : ℕ) : ℤ)

/-- Biharmonic basis `SB` (KMM.py:27): `T_j - 2(j+2)/(j+3) T_{j+2} + (j+1)/(j+3) T_{j+4}`, `j < N-4`. -/
noncomputable def psi (j : ℕ) : ℝ[X] :=
  T ℝ (j : ℤ) - (2 * ((j : ℝ) + 2) / (j + 3)) • T ℝ ((j + 2 : ℕ) : ℤ) + (((j : ℝ) + 1) / (j + 3)) • T ℝ ((j + 4 : ℕ) : ℤ)

/-- Entries of `inner_product((test, 0), (trial, d))`. -/
noncomputable def entry (q : Quad) (N : ℕ) (test trial : ℕ → ℝ[X]) (d a b : ℕ) : Matrix (Fin a) (Fin b) ℝ :=
  fun i j => quadrature q N (derivative^[d] (trial j) * test i)

/-- A real matrix acting on complex coefficients (`matvec`). -/
noncomputable def matC {a b : ℕ} (A : Matrix (Fin a) (Fin b) ℝ) : (Fin b → ℂ) →ₗ[ℂ] (Fin a → ℂ) := Matrix.toLin' (A.map ((↑) : ℝ → ℂ))

/-- The complex function with the coefficients in an array (`backward` before evaluation at the points). -/
noncomputable def expandC (f : ℕ → ℝ[X]) {a : ℕ} : (Fin a → ℂ) →ₗ[ℂ] ℂ[X] :=
  ∑ j : Fin a, (LinearMap.proj j : (Fin a → ℂ) →ₗ[ℂ] ℂ).smulRight ((f j).map Complex.ofRealHom)

/-- `FST.scalar_product` along the wall-normal axis (LaminarChannel.py:17): quadrature of a function times the basis functions. -/
noncomputable def scalarProduct (q : Quad) (N : ℕ) (f : ℕ → ℝ[X]) {a : ℕ} : ℂ[X] →ₗ[ℂ] (Fin a → ℂ) :=
  LinearMap.pi fun i => ∑ j ∈ Finset.range N, ((quadWeight q N j * (f i).eval (quadPoint q N j) : ℝ) : ℂ) • leval ((quadPoint q N j : ℝ) : ℂ)

/-- `mat` (KMM.py:105-120) for `N[0] = n + 4`. -/
noncomputable def chebMats (q : Quad) (n : ℕ) : Mats (Fin n → ℂ) (Fin (n + 2) → ℂ) where
  CBD := matC (entry q (n + 4) psi phi 1 n (n + 2))
  ABB := matC (entry q (n + 4) psi psi 2 n n)
  BBB := matC (entry q (n + 4) psi psi 0 n n)
  SBB := matC (entry q (n + 4) psi psi 4 n n)
  ADD := matC (entry q (n + 4) phi phi 2 (n + 2) (n + 2))
  BDD := matC (entry q (n + 4) phi phi 0 (n + 2) (n + 2))
  BBD := matC (entry q (n + 4) psi phi 0 n (n + 2))
  CDB := matC (entry q (n + 4) phi psi 1 (n + 2) n)
  ADD0 := matC (entry q (n + 4) phi phi 2 (n + 2) (n + 2))
  BDD0 := matC (entry q (n + 4) phi phi 0 (n + 2) (n + 2))

end SpectralDNS.Channel

import Mathlib.RingTheory.Polynomial.Chebyshev
import Mathlib.Analysis.SpecialFunctions.Trigonometric.Chebyshev.Orthogonality

/-! # Vocabulary for the stand-alone Neumann solver -/

namespace SpectralDNS.Sandbox.Neumann

open Polynomial Polynomial.Chebyshev Real Finset MeasureTheory

/-- The `N` Gauss-Lobatto points. -/
noncomputable def node (N j : ℕ) : ℝ := cos (π * j / (N - 1))

/-- A polynomial at the points. -/
noncomputable def sample (N : ℕ) (p : ℝ[X]) : ℕ → ℝ := fun j => p.eval (node N j)

/-- Weights of the Gauss-Lobatto quadrature. -/
noncomputable def weight (N j : ℕ) : ℝ := if j = 0 ∨ j = N - 1 then π / (2 * (N - 1)) else π / (N - 1)

/-- The functions that the script computes with: flat at both ends, polynomials of degree below `N`. -/
def Flat (N : ℕ) (u : ℝ[X]) : Prop := u.degree < (N : ℕ) ∧ (derivative u).eval 1 = 0 ∧ (derivative u).eval (-1) = 0

/-- The weighted mean of a polynomial over `[-1, 1]`. -/
noncomputable def mean (u : ℝ[X]) : ℝ := (∫ x, u.eval x ∂measureT) / π

/-- The values `g` at the points are orthogonal to every flat function with mean zero. -/
def Orthogonal (N : ℕ) (g : ℕ → ℝ) : Prop := ∀ v, Flat N v → mean v = 0 → ∑ j ∈ range N, weight N j * g j * sample N v j = 0

end SpectralDNS.Sandbox.Neumann

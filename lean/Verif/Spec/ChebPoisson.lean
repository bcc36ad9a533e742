import Mathlib.RingTheory.Polynomial.Chebyshev
import Mathlib.Analysis.SpecialFunctions.Trigonometric.Basic

/-! # Vocabulary for the stand-alone Poisson solvers -/

namespace SpectralDNS.Sandbox

open Polynomial Polynomial.Chebyshev Real Finset

/-- The `N` Gauss-Chebyshev points. -/
noncomputable def node (N j : ℕ) : ℝ := cos (π * ((j : ℝ) + 1 / 2) / N)

/-- A polynomial at the points. -/
noncomputable def sample (N : ℕ) (p : ℝ[X]) : ℕ → ℝ := fun j => p.eval (node N j)

/-- The Chebyshev series with `N` coefficients. -/
noncomputable def series (N : ℕ) (c : ℕ → ℝ) : ℝ[X] := ∑ k ∈ range N, c k • T ℝ (k : ℤ)

/-- The functions vanishing at both ends that the script computes with: polynomials of degree below `N`. -/
def Dirichlet (N : ℕ) (u : ℝ[X]) : Prop := u.degree < (N : ℕ) ∧ u.eval 1 = 0 ∧ u.eval (-1) = 0

/-- The values `g` at the points are orthogonal to every function that vanishes at both ends, for Gauss-Chebyshev quadrature. -/
def Orthogonal (N : ℕ) (g : ℕ → ℝ) : Prop := ∀ v, Dirichlet N v → ∑ j ∈ range N, g j * sample N v j = 0

end SpectralDNS.Sandbox

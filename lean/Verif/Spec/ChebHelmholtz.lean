import Verif.Spec.LegPoisson
import Mathlib.Analysis.SpecialFunctions.Trigonometric.Basic

/-!
# Collocation for the Helmholtz equation with piecewise polynomials

The intervals, their points and the continuity of functions and derivatives are those of `Spec/LegPoisson.lean`.  Independent of the solver.
-/

namespace SpectralDNS.ChebH

open Polynomial

/-- What the documentation of the Chebyshev-Gauss-Lobatto points and weights promises, as far as it is needed: the points are the extrema of the Chebyshev
polynomial of degree `n`, in one of the two orders, and the weights are positive. -/
structure Lobatto (n : ℕ) (pts w : ℕ → ℝ) : Prop where
  points : (∀ j ≤ n, pts j = Real.cos (Real.pi * j / n)) ∨ ∀ j ≤ n, pts j = -Real.cos (Real.pi * j / n)
  positive : ∀ j ≤ n, 0 < w j

/-- The weights too are the documented ones. -/
structure Documented (n : ℕ) (pts w : ℕ → ℝ) : Prop extends Lobatto n pts w where
  weights : ∀ j ≤ n, w j = if j = 0 ∨ j = n then Real.pi / (2 * n) else Real.pi / n

/-- `u` has a continuous derivative, is a polynomial of degree at most `n` on each of `m` intervals, has the values `a` and `b` at -1 and 1, and satisfies
`-u'' + kx^2 u = f` at the points inside the intervals. -/
structure Collocation (n m : ℕ) (pts : ℕ → ℝ) (kx a b : ℝ) (f : ℕ → ℕ → ℝ) (u : ℕ → ℝ[X]) : Prop where
  pieces : Leg.Piecewise n m u
  smooth : Leg.Smooth m u
  left : (u 0).eval (-1) = a
  right : (u (m - 1)).eval 1 = b
  equation : ∀ i < m, ∀ j, 0 < j → j < n →
    -(derivative (derivative (u i))).eval (Leg.point m pts i j) + kx ^ 2 * (u i).eval (Leg.point m pts i j) = f i j

end SpectralDNS.ChebH

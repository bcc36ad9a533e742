import Mathlib.Algebra.Polynomial.Derivative
import Mathlib.MeasureTheory.Integral.IntervalIntegral.Basic

/-!
# The Helmholtz equation with piecewise polynomials

`[-1, 1]` is cut into `m` intervals of equal length, the functions are polynomials on each of them.  Independent of the solver.
-/

namespace SpectralDNS.Leg

open Polynomial Finset

/-- What the documentation of `leggauss(n+1)` promises: distinct points, positive weights, exact integrals of polynomials of degree at most `2n+1`. -/
structure Rule (n : ℕ) (pts w : ℕ → ℝ) : Prop where
  positive : ∀ j ≤ n, 0 < w j
  distinct : ∀ i ≤ n, ∀ j ≤ n, pts i = pts j → i = j
  exact : ∀ p : ℝ[X], p.natDegree ≤ 2 * n + 1 → ∑ j ∈ range (n + 1), w j * p.eval (pts j) = ∫ x in (-1 : ℝ)..1, p.eval x

/-- The end of interval `i` on the side of -1. -/
noncomputable def node (m i : ℕ) : ℝ := -1 + 2 * i / m

/-- The quadrature points of interval `i`: those of `[-1, 1]`, shrunk and shifted. -/
noncomputable def point (m : ℕ) (pts : ℕ → ℝ) (i j : ℕ) : ℝ := node m i + (1 + pts j) / m

/-- Continuous functions which are polynomials of degree at most `n` on each interval. -/
structure Piecewise (n m : ℕ) (u : ℕ → ℝ[X]) : Prop where
  degree : ∀ i < m, (u i).natDegree ≤ n
  cont : ∀ i, i + 1 < m → (u i).eval (node m (i + 1)) = (u (i + 1)).eval (node m (i + 1))

/-- The derivative is continuous. -/
def Smooth (m : ℕ) (u : ℕ → ℝ[X]) : Prop :=
  ∀ i, i + 1 < m → (derivative (u i)).eval (node m (i + 1)) = (derivative (u (i + 1))).eval (node m (i + 1))

/-- `u` is the Galerkin approximation of `-u'' + kx^2 u = f`, `u(-1) = a`, `u(1) = b`, where `f` is known at the quadrature points. -/
structure Galerkin (n m : ℕ) (pts w : ℕ → ℝ) (kx a b : ℝ) (f : ℕ → ℕ → ℝ) (u : ℕ → ℝ[X]) : Prop where
  pieces : Piecewise n m u
  left : (u 0).eval (-1) = a
  right : (u (m - 1)).eval 1 = b
  weak : ∀ v, Piecewise n m v → (v 0).eval (-1) = 0 → (v (m - 1)).eval 1 = 0 →
    ∑ i ∈ range m, ∫ x in node m i..node m (i + 1), ((derivative (u i)).eval x * (derivative (v i)).eval x + kx ^ 2 * ((u i).eval x * (v i).eval x)) =
      ∑ i ∈ range m, ∑ j ∈ range (n + 1), w j / m * (f i j * (v i).eval (point m pts i j))

end SpectralDNS.Leg

import Verif.Spec.ChebPoisson

/-! # The Helmholtz equation with given boundary values -/

namespace SpectralDNS.Sandbox.Nonhomo

open Polynomial

/-- Polynomials of degree below `N` with the value `a` at 1 and `b` at -1. -/
def Boundary (N : ℕ) (a b : ℝ) (u : ℝ[X]) : Prop := u.degree < (N : ℕ) ∧ u.eval 1 = a ∧ u.eval (-1) = b

/-- The left-hand side of the equation: `-u'' + kx^2 u`. -/
noncomputable def operator (kx : ℝ) (u : ℝ[X]) : ℝ[X] := -derivative (derivative u) + C (kx ^ 2) * u

end SpectralDNS.Sandbox.Nonhomo

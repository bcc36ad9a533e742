import Mathlib.Analysis.Complex.Basic
import Mathlib.Analysis.SpecialFunctions.Exp
import Mathlib.Analysis.Calculus.Deriv.Basic
import Mathlib.Algebra.Polynomial.Eval.Defs

/-!
# Velocity fields between two walls (specification)

Functions of a point `(x, y, z)`, `x` the wall-normal coordinate, with their partial derivatives.  Independent of `Model/ChannelConv.lean`.
-/

namespace SpectralDNS.Spec.Field

open Polynomial

/-- A scalar field. -/
abbrev Scalar := ℝ → ℝ → ℝ → ℝ

noncomputable def dx (f : Scalar) : Scalar := fun x y z => deriv (fun s => f s y z) x
noncomputable def dy (f : Scalar) : Scalar := fun x y z => deriv (fun s => f x s z) y
noncomputable def dz (f : Scalar) : Scalar := fun x y z => deriv (fun s => f x y s) z

/-- `(u . grad) f`. -/
noncomputable def advect (u0 u1 u2 f : Scalar) : Scalar := fun x y z =>
  u0 x y z * dx f x y z + u1 x y z * dy f x y z + u2 x y z * dz f x y z

noncomputable def curl0 (_u0 u1 u2 : Scalar) : Scalar := fun x y z => dy u2 x y z - dz u1 x y z
noncomputable def curl1 (u0 _u1 u2 : Scalar) : Scalar := fun x y z => dz u0 x y z - dx u2 x y z
noncomputable def curl2 (u0 u1 _u2 : Scalar) : Scalar := fun x y z => dx u1 x y z - dy u0 x y z

/-- The real function with wall-normal coefficient functions `a k` and wavenumbers `k1`, `k2`; `w k` is the number of modes which the
stored mode `k` represents. -/
noncomputable def field {κ : Type*} [Fintype κ] (w k1 k2 : κ → ℝ) (a : κ → ℂ[X]) : Scalar := fun x y z =>
  (∑ k, (w k : ℂ) * (a k).eval (x : ℂ) * Complex.exp (Complex.I * (k1 k * y + k2 k * z))).re

/-- Conservation of mass at every point. -/
def DivergenceFree (u v w : Scalar) : Prop := ∀ x y z, dx u x y z + dy v x y z + dz w x y z = 0

/-- No fluid moves at the walls `x = -1` and `x = 1`; by conservation of mass the wall-normal derivative of `u` is zero there, too. -/
def NoSlip (u v w : Scalar) : Prop :=
  ∀ x y z, x = -1 ∨ x = 1 → u x y z = 0 ∧ v x y z = 0 ∧ w x y z = 0 ∧ dx u x y z = 0

end SpectralDNS.Spec.Field

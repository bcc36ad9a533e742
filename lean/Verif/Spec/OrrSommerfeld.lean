import Verif.Spec.ChannelField
import Mathlib.Algebra.Polynomial.Derivative

/-!
# Linear stability of the plane Poiseuille flow (specification)

`x` is the wall-normal, `y` the streamwise direction, as in KMM.py.
-/

namespace SpectralDNS.Spec.OrrSommerfeld

open Polynomial Field

/-- A scalar field that depends on time. -/
abbrev Flow := ℝ → Scalar

noncomputable def ddt (f : Flow) : Flow := fun t x y z => deriv (fun s => f s x y z) t

/-- The vorticity of a flow in the plane. -/
noncomputable def vort (u v : Flow) : Flow := fun t => curl2 (u t) (v t) 0

/-- The residual of the vorticity equation of plane flow. -/
noncomputable def vortRes (nu : ℝ) (u v : Flow) : Flow := fun t x y z =>
  let om := vort u v
  ddt om t x y z + u t x y z * dx (om t) x y z + v t x y z * dy (om t) x y z - nu * (dx (dx (om t)) x y z + dy (dy (om t)) x y z)

/-- The residual of the vorticity equation for a small perturbation `u`, `v` of the parallel flow `V(x)`. -/
noncomputable def linRes (nu : ℝ) (V : ℝ → ℝ) (u v : Flow) : Flow := fun t x y z =>
  let om := vort u v
  ddt om t x y z + V x * dy (om t) x y z + u t x y z * deriv (deriv V) x - nu * (dx (dx (om t)) x y z + dy (dy (om t)) x y z)

/-- The Orr-Sommerfeld operator for the flow `1 - x^2`, wavenumber `a` and phase speed `c`:
`(D^2 - a^2)^2 phi - i a Re ((1 - x^2 - c)(D^2 - a^2) phi + 2 phi)`. -/
noncomputable def op (a Re : ℝ) (c : ℂ) (phi : ℂ[X]) : ℂ[X] :=
  let lap := fun p : ℂ[X] => derivative (derivative p) - C ((a : ℂ) ^ 2) * p
  lap (lap phi) - C (Complex.I * a * Re) * ((1 - X ^ 2 - C c) * lap phi + 2 * phi)

end SpectralDNS.Spec.OrrSommerfeld

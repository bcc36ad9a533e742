import Verif.Spec.ChannelField
import Mathlib.Algebra.BigOperators.Group.Finset.Basic
import Mathlib.Algebra.Polynomial.Derivative

/-!
# The equations of channel flow in physical space (specification)

The momentum equations `∂u/∂t = -∇p + h + nu Δu` with `div u = 0`, in the variables of Kim, Moin and Moser: the wall-normal velocity `u`,
the wall-normal vorticity `g`, and the averages over the walls of the velocities along them.
-/

namespace SpectralDNS.Spec.Field

open Polynomial

noncomputable def laplacian (f : Scalar) : Scalar := fun x y z => dx (dx f) x y z + dy (dy f) x y z + dz (dz f) x y z

/-- Forcing of `Δu`: the wall-normal component of the double curl of `h`, with opposite sign. -/
noncomputable def force (h0 h1 h2 : Scalar) : Scalar := fun x y z =>
  dy (dy h0) x y z + dz (dz h0) x y z - dx (dy h1) x y z - dx (dz h2) x y z

/-- What remains of `∂(Δu)/∂t = nu ΔΔu + force h` when the time derivative is a difference over `tau` and the viscous term a mean of the
old and the new one. -/
noncomputable def residualU (nu tau : ℝ) (h0 h1 h2 u u' : Scalar) : Scalar := fun x y z =>
  laplacian u' x y z - laplacian u x y z
    - tau * (nu / 2 * (laplacian (laplacian u) x y z + laplacian (laplacian u') x y z) + force h0 h1 h2 x y z)

/-- What remains of `∂g/∂t = nu Δg + (curl h)_0`. -/
noncomputable def residualG (nu tau : ℝ) (h0 h1 h2 g g' : Scalar) : Scalar := fun x y z =>
  g' x y z - g x y z - tau * (nu / 2 * (laplacian g x y z + laplacian g' x y z) + curl0 h0 h1 h2 x y z)

/-- What remains of `∂V/∂t = nu V'' + H - S` for the average `V` over the planes parallel to the walls. -/
noncomputable def residualMean (nu tau : ℝ) (H S V V' : ℂ[X]) : ℂ[X] :=
  V' - V - (tau : ℂ) • (((nu / 2 : ℝ) : ℂ) • (derivative^[2] V + derivative^[2] V') + H - S)

/-- What remains of `∂T/∂t + Q = kappa ΔT`, `Q` the convection. -/
noncomputable def residualT (kappa tau : ℝ) (Q T T' : Scalar) : Scalar := fun x y z =>
  T' x y z - T x y z - tau * (kappa / 2 * (laplacian T x y z + laplacian T' x y z) - Q x y z)

/-- The upper wall (`x = 1`) has the first temperature, the lower one the second. -/
def WallTemperatures (bc : ℝ × ℝ) (T : Scalar) : Prop := ∀ y z, T 1 y z = bc.1 ∧ T (-1) y z = bc.2

/-- A function is orthogonal to the test functions along every line across the channel, the integral being a sum over points `x j` with
weights `w j`. -/
def Orthogonal {m : ℕ} {ι : Type*} (x w : Fin m → ℝ) (test : ι → ℝ[X]) (r : Scalar) : Prop :=
  ∀ i y z, ∑ j, w j * (test i).eval (x j) * r (x j) y z = 0

@[inherit_doc Orthogonal] def OrthogonalP {m : ℕ} {ι : Type*} (x w : Fin m → ℝ) (test : ι → ℝ[X]) (r : ℂ[X]) : Prop :=
  ∀ i, ∑ j, ((w j * (test i).eval (x j) : ℝ) : ℂ) * r.eval (x j : ℂ) = 0

end SpectralDNS.Spec.Field

import Verif.Model.Galerkin

/-!
# What the pressure of the channel solver should satisfy (specification)

`scalarProduct` is shenfun's `inner` with the test functions along the wall-normal axis.
-/

namespace SpectralDNS.Spec.Pressure

open Polynomial SpectralDNS.Channel

/-- Momentum normal to the walls at a wavenumber pair with squared length `k2`, tested with the Chebyshev polynomials of degree less than
`m`: `dp/dx = nu lap((u + u0)/2) + h - (u - u0)/dt` for the wall-normal velocities `u`, `u0` at two times. -/
def WallNormal (q : Quad) (N m : ℕ) (nu dt k2 : ℝ) (u u0 h p : ℂ[X]) : Prop :=
  let um := (0.5 : ℂ) • (u + u0)
  ∀ i : Fin m, scalarProduct (a := m) q N (fun j => Chebyshev.T ℝ (j : ℤ)) (derivative p) i =
    scalarProduct (a := m) q N (fun j => Chebyshev.T ℝ (j : ℤ))
      ((nu : ℂ) • (derivative^[2] um - (k2 : ℂ) • um) + h - (1 / dt : ℂ) • (u - u0)) i

/-- The square of the norm of the last Chebyshev polynomial in the two quadratures. -/
noncomputable def lastNorm : Quad → ℝ
  | .GC => Real.pi / 2
  | .GL => Real.pi

end SpectralDNS.Spec.Pressure

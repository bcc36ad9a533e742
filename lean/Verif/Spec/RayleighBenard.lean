import Verif.Spec.Channel

/-!
# Discrete Boussinesq equations between two plates (specification)

Independent of `Model/RayleighBenard.lean`.
-/

namespace SpectralDNS.Spec.Channel

variable {B D : Type*} [AddCommGroup B] [Module ℂ B] [AddCommGroup D] [Module ℂ D]

/-- Inner products with the test functions of the linear function taking the values `top` at `x = 1` and `bottom` at `x = -1`; `m0` and
`m1` are the inner products of the functions `1` and `x`. -/
noncomputable def weakLinear (m0 m1 : B) (top bottom : ℂ) : B := ((top + bottom) / 2) • m0 + ((top - bottom) / 2) • m1

/-- Weak form of `(∂²/∂y² + ∂²/∂z²) T`, the forcing of the wall-normal velocity equation by the buoyancy `T e_x`. -/
noncomputable def forceT (ksq : ℝ) (weakT : B) : B := -((ksq : ℂ) • weakT)

/-- Weak form of the divergence of the heat flux with components `q0`, `q1`, `q2`. -/
noncomputable def weakDiv (mass : D →ₗ[ℂ] D) (deriv : B →ₗ[ℂ] D) (k1 k2 : ℝ) (q0 : B) (q1 q2 : D) : D :=
  deriv q0 + mass ((Complex.I * k1) • q1 + (Complex.I * k2) • q2)

end SpectralDNS.Spec.Channel

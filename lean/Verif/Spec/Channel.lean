import Mathlib.Analysis.Complex.Basic
import Mathlib.Algebra.Module.LinearMap.Basic

/-!
# Discrete channel flow equations (specification)

Independent of `Model/Channel.lean`.
-/

namespace SpectralDNS.Spec.Channel

variable {B D : Type*} [AddCommGroup B] [Module ℂ B] [AddCommGroup D] [Module ℂ D]

/-- Galerkin form of `du/dx + i k1 v + i k2 w = 0` for one wavenumber pair: `mass` and `deriv` are the matrices of the test space with
the spaces of `v`, `w` and of `du/dx`. -/
def Continuity (mass : D →ₗ[ℂ] D) (deriv : B →ₗ[ℂ] D) (k1 k2 : ℝ) (u : B) (v w : D) : Prop :=
  deriv u + mass ((Complex.I * k1) • v + (Complex.I * k2) • w) = 0

/-- Wall-normal component of the curl. -/
noncomputable def curl (k1 k2 : ℝ) (v w : D) : D := (Complex.I * k1) • w - (Complex.I * k2) • v

/-- Crank-Nicolson step of size `dt` for `M x' = nu L x + F` with `F` given. -/
def CrankNicolson {V : Type*} [AddCommGroup V] [Module ℂ V] (M L : V →ₗ[ℂ] V) (nu dt : ℝ) (F x x' : V) : Prop :=
  M x' - ((nu * dt / 2 : ℝ) : ℂ) • L x' = M x + ((nu * dt / 2 : ℝ) : ℂ) • L x + (dt : ℂ) • F

/-- `d²/dx² - k²`. -/
def lap (mass second : B →ₗ[ℂ] B) (k2 : ℝ) : B →ₗ[ℂ] B := second - (k2 : ℂ) • mass

/-- `(d²/dx² - k²)²`. -/
def bilap (mass second fourth : B →ₗ[ℂ] B) (k2 : ℝ) : B →ₗ[ℂ] B :=
  fourth - ((2 * k2 : ℝ) : ℂ) • second + ((k2 ^ 2 : ℝ) : ℂ) • mass

/-- Forcing of the wall-normal velocity equation by the vector `h`: weak form of `-(∂²/∂y²+∂²/∂z²)`-derivatives of `h`,
`-k² h0 - d/dx (i k1 h1 + i k2 h2)`. -/
noncomputable def forceU (mass deriv : D →ₗ[ℂ] B) (ksq k1 k2 : ℝ) (h0 h1 h2 : D) : B :=
  -((ksq : ℂ) • mass h0) - deriv ((Complex.I * k1) • h1 + (Complex.I * k2) • h2)

/-- Forcing of the wall-normal vorticity equation by the vector `h`: weak form of its wall-normal curl. -/
noncomputable def forceG (mass : D →ₗ[ℂ] D) (k1 k2 : ℝ) (h1 h2 : D) : D := mass (curl k1 k2 h1 h2)

/-- Second order Adams-Bashforth extrapolation to the middle of the step, times a mask factor. -/
noncomputable def ab2Mid (m : ℝ) (N Nold : D) : D := (m : ℂ) • ((3 / 2 : ℂ) • N - (1 / 2 : ℂ) • Nold)

end SpectralDNS.Spec.Channel

import Verif.Spec.Fourier

/-!
# Specification of the nonlinear terms and of energy, over an abstract pair of transforms

`F` maps grid values to coefficients, `B` maps coefficients to grid values.
-/

namespace SpectralDNS.Spec

open Complex

variable {d : ℕ} {ι X : Type*}

/-- `F(u_j du_i/dx_j)`: derivatives taken in Fourier space, products on the grid. -/
noncomputable def advection (F : (X → ℝ) → ι → ℂ) (B : (ι → ℂ) → X → ℝ) (K : Fin d → ι → ℝ) (u : Fin d → ι → ℂ) :
    Fin d → ι → ℂ :=
  fun i => F fun x => ∑ j, B (u j) x * B (fun k => I * K j k * u i k) x

/-- `i k_j F(u_i u_j)`. -/
noncomputable def divergenceForm (F : (X → ℝ) → ι → ℂ) (B : (ι → ℂ) → X → ℝ) (K : Fin d → ι → ℝ) (u : Fin d → ι → ℂ) :
    Fin d → ι → ℂ :=
  fun i k => ∑ j, I * K j k * F (fun x => B (u i) x * B (u j) x) k

/-- `F(u x curl u)`. -/
noncomputable def lamb (F : (X → ℝ) → ι → ℂ) (B : (ι → ℂ) → X → ℝ) (K : Fin 3 → ι → ℝ) (u : Fin 3 → ι → ℂ) :
    Fin 3 → ι → ℂ :=
  fun i => F fun x => cross (fun j => B (u j) x) (fun j => B (curl K u j) x) i

/-- `B` is, up to the constant `c`, the adjoint of `F` for the inner product `sum_k w_k Re(conj a_k b_k)`. -/
def Adjoint [Fintype ι] [Fintype X] (w : ι → ℝ) (c : ℝ) (F : (X → ℝ) → ι → ℂ) (B : (ι → ℂ) → X → ℝ) : Prop :=
  ∀ (a : ι → ℂ) (f : X → ℝ), ∑ k, w k * ((starRingEnd ℂ) (a k) * F f k).re = c * ∑ x, B a x * f x

/-- Kinetic energy `1/2 sum_k w_k |u_k|^2` (the weights count the modes represented by an entry of the array). -/
noncomputable def energy [Fintype ι] (w : ι → ℝ) (u : Fin d → ι → ℂ) : ℝ := 1 / 2 * ∑ i, ∑ k, w k * Complex.normSq (u i k)

/-- Rate of work of `r` on `u`. -/
noncomputable def power [Fintype ι] (w : ι → ℝ) (u r : Fin d → ι → ℂ) : ℝ :=
  ∑ i, ∑ k, w k * ((starRingEnd ℂ) (u i k) * r i k).re

/-- Dissipation `sum_k w_k |k|^2 |u_k|^2`. -/
noncomputable def dissipation [Fintype ι] (w : ι → ℝ) (K : Fin d → ι → ℝ) (u : Fin d → ι → ℂ) : ℝ :=
  ∑ k, w k * normSq (at' K k) * ∑ i, Complex.normSq (u i k)

end SpectralDNS.Spec

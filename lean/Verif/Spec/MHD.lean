import Verif.Spec.Convection

/-!
# Specification of the nonlinear terms of magnetohydrodynamics and of the Boussinesq equations
-/

namespace SpectralDNS.Spec

open Complex

variable {d : ℕ} {ι X : Type*}

/-- `i k_j F(u_i u_j - b_i b_j)`: divergence of the Reynolds and Maxwell stresses. -/
noncomputable def stressDiv (F : (X → ℝ) → ι → ℂ) (B : (ι → ℂ) → X → ℝ) (K : Fin d → ι → ℝ) (u b : Fin d → ι → ℂ) :
    Fin d → ι → ℂ :=
  fun i k => ∑ j, I * K j k * F (fun x => B (u i) x * B (u j) x - B (b i) x * B (b j) x) k

/-- `i k_j F(b_j u_i - u_j b_i)`: the induction term `curl (u x b)` for divergence-free fields. -/
noncomputable def induction (F : (X → ℝ) → ι → ℂ) (B : (ι → ℂ) → X → ℝ) (K : Fin d → ι → ℝ) (u b : Fin d → ι → ℂ) :
    Fin d → ι → ℂ :=
  fun i k => ∑ j, I * K j k * F (fun x => B (b j) x * B (u i) x - B (u j) x * B (b i) x) k

/-- `i k_j F(u_j rho)`: divergence of the flux of a scalar. -/
noncomputable def fluxDiv (F : (X → ℝ) → ι → ℂ) (B : (ι → ℂ) → X → ℝ) (K : Fin d → ι → ℝ) (u : Fin d → ι → ℂ) (rho : ι → ℂ) :
    ι → ℂ :=
  fun k => ∑ j, I * K j k * F (fun x => B (u j) x * B rho x) k

/-- In two dimensions: `F(u x curl u)` with the scalar vorticity `i (k_0 u_1 - k_1 u_0)`. -/
noncomputable def lamb2 (F : (X → ℝ) → ι → ℂ) (B : (ι → ℂ) → X → ℝ) (K : Fin 2 → ι → ℝ) (u : Fin 2 → ι → ℂ) : Fin 2 → ι → ℂ :=
  let w := B fun k => I * (K 0 k * u 1 k - K 1 k * u 0 k)
  ![F fun x => B (u 1) x * w x, F fun x => -(B (u 0) x * w x)]

/-- The pressure gradient removes the part of `v` along `k` (with the convention that nothing is removed at `k = 0`). -/
noncomputable def leray (K : Fin d → ι → ℝ) (v : Fin d → ι → ℂ) : Fin d → ι → ℂ :=
  open Classical in fun i k => if normSq (at' K k) = 0 then v i k else v i k - K i k * dot (at' K k) (at' v k) / normSq (at' K k)

end SpectralDNS.Spec

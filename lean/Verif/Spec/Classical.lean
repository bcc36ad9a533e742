import Verif.Spec.Torus
import Mathlib.Analysis.Calculus.ContDiff.Defs

/-! # Specification: classical solutions of the equations on the periodic box -/

namespace SpectralDNS.Spec

open scoped ContDiff

variable {d : ℕ}

/-- A function with the periods `L`. -/
def BoxPeriodic {F : Type*} (L : Fin d → ℝ) (f : (Fin d → ℝ) → F) : Prop := ∀ i x, f (x + Pi.single i (L i)) = f x

/-- A function of time and space that is smooth in both together. -/
def SmoothField (g : ℝ → (Fin d → ℝ) → ℝ) : Prop := ContDiff ℝ ∞ fun z : ℝ × (Fin d → ℝ) => g z.1 z.2

/-- The smooth periodic velocity `u` and pressure `p` solve the incompressible Navier-Stokes equations
`du/dt = -(u.grad)u - grad p + nu lap u + f`, `div u = 0` at every point of space, for `0 <= t <= T`. -/
structure ClassicalNS (L : Fin d → ℝ) (nu T : ℝ) (f : Fin d → (Fin d → ℝ) → ℝ) (u : ℝ → Fin d → (Fin d → ℝ) → ℝ)
    (p : ℝ → (Fin d → ℝ) → ℝ) : Prop where
  smooth : ∀ i, SmoothField fun t => u t i
  smooth_p : ∀ t, ContDiff ℝ 1 (p t)
  periodic : ∀ t i, BoxPeriodic L (u t i)
  periodic_p : ∀ t, BoxPeriodic L (p t)
  continuous_f : ∀ i, Continuous (f i)
  divergence : ∀ t ∈ Set.Icc 0 T, ∀ x, ∑ i, pderiv i (u t i) x = 0
  momentum : ∀ t ∈ Set.Icc 0 T, ∀ x i, _root_.deriv (fun s => u s i x) t =
    -(∑ j, u t j x * pderiv j (u t i) x) - pderiv i (p t) x + nu * ∑ j, pderiv j (pderiv j (u t i)) x + f i x

/-- The smooth periodic velocity `u`, magnetic field `b` and total pressure `p` solve the equations of incompressible magnetohydrodynamics
`du/dt = -(u.grad)u + (b.grad)b - grad p + nu lap u`, `db/dt = (b.grad)u - (u.grad)b + eta lap b`, `div u = div b = 0` for `0 <= t <= T`. -/
structure ClassicalMHD (L : Fin d → ℝ) (nu eta T : ℝ) (u b : ℝ → Fin d → (Fin d → ℝ) → ℝ) (p : ℝ → (Fin d → ℝ) → ℝ) : Prop where
  smooth : ∀ i, SmoothField fun t => u t i
  smooth_b : ∀ i, SmoothField fun t => b t i
  smooth_p : ∀ t, ContDiff ℝ 1 (p t)
  periodic : ∀ t i, BoxPeriodic L (u t i)
  periodic_b : ∀ t i, BoxPeriodic L (b t i)
  periodic_p : ∀ t, BoxPeriodic L (p t)
  divergence : ∀ t ∈ Set.Icc 0 T, ∀ x, ∑ i, pderiv i (u t i) x = 0
  divergence_b : ∀ t ∈ Set.Icc 0 T, ∀ x, ∑ i, pderiv i (b t i) x = 0
  momentum : ∀ t ∈ Set.Icc 0 T, ∀ x i, _root_.deriv (fun s => u s i x) t =
    -(∑ j, u t j x * pderiv j (u t i) x) + (∑ j, b t j x * pderiv j (b t i) x) - pderiv i (p t) x + nu * ∑ j, pderiv j (pderiv j (u t i)) x
  induction : ∀ t ∈ Set.Icc 0 T, ∀ x i, _root_.deriv (fun s => b s i x) t =
    (∑ j, b t j x * pderiv j (u t i) x) - (∑ j, u t j x * pderiv j (b t i) x) + eta * ∑ j, pderiv j (pderiv j (b t i)) x

/-- The smooth periodic velocity `u`, pressure `p` and density `rho` solve the Boussinesq equations in the plane,
`du/dt = -(u.grad)u - grad p + nu lap u - Ri rho e_y`, `d rho/dt = -(u.grad)rho + kappa lap rho`, `div u = 0` for `0 <= t <= T`. -/
structure ClassicalBq (L : Fin 2 → ℝ) (nu Ri kappa T : ℝ) (u : ℝ → Fin 2 → (Fin 2 → ℝ) → ℝ) (p rho : ℝ → (Fin 2 → ℝ) → ℝ) : Prop where
  smooth : ∀ i, SmoothField fun t => u t i
  smooth_rho : SmoothField rho
  smooth_p : ∀ t, ContDiff ℝ 1 (p t)
  periodic : ∀ t i, BoxPeriodic L (u t i)
  periodic_rho : ∀ t, BoxPeriodic L (rho t)
  periodic_p : ∀ t, BoxPeriodic L (p t)
  divergence : ∀ t ∈ Set.Icc 0 T, ∀ x, ∑ i, pderiv i (u t i) x = 0
  momentum : ∀ t ∈ Set.Icc 0 T, ∀ x i, _root_.deriv (fun s => u s i x) t =
    -(∑ j, u t j x * pderiv j (u t i) x) - pderiv i (p t) x + nu * (∑ j, pderiv j (pderiv j (u t i)) x) - if i = 1 then Ri * rho t x else 0
  transport : ∀ t ∈ Set.Icc 0 T, ∀ x, _root_.deriv (fun s => rho s x) t =
    -(∑ j, u t j x * pderiv j (rho t) x) + kappa * ∑ j, pderiv j (pderiv j (rho t)) x

/-- Computed states `(U, next dt, dt taken)`, the first of them computed from time `t`: after every step the mean over the box of the squared
distance of the computed fields `val U` from the fields `u` at the time reached is at most `e`. -/
def FollowsFlow {S κ : Type*} [Fintype κ] (L : Fin d → ℝ) (val : S → κ → (Fin d → ℝ) → ℝ) (u : ℝ → κ → (Fin d → ℝ) → ℝ) (e : ℝ) :
    ℝ → List (S × ℝ × ℝ) → Prop
  | _, [] => True
  | t, o :: outs => boxMean L (fun x => ∑ i, (u (t + o.2.2) i x - val o.1 i x) ^ 2) ≤ e ∧ FollowsFlow L val u e (t + o.2.2) outs

end SpectralDNS.Spec

import Verif.Spec.Invariants
import Mathlib.Analysis.Calculus.Deriv.Basic
import Mathlib.MeasureTheory.Integral.Bochner.Set
import Mathlib.MeasureTheory.Constructions.Pi
import Mathlib.MeasureTheory.Measure.Lebesgue.Basic

/-! # Specification: real functions on a periodic box, their derivatives and means -/

namespace SpectralDNS.Spec

open Complex

variable {d : ℕ} {ι : Type*}

/-- The real function with coefficients `a` at the wavenumbers `K`; `w k` is the number of modes which the stored mode `k` represents. -/
noncomputable def trigField [Fintype ι] (w : ι → ℝ) (K : Fin d → ι → ℝ) (a : ι → ℂ) (x : Fin d → ℝ) : ℝ :=
  (∑ k, (w k : ℂ) * a k * Complex.exp (I * ∑ i, (K i k : ℂ) * x i)).re

/-- Partial derivative. -/
noncomputable def pderiv (j : Fin d) (f : (Fin d → ℝ) → ℝ) (x : Fin d → ℝ) : ℝ := _root_.deriv (fun t => f (Function.update x j t)) (x j)

/-- Mean over the box with sides `L`. -/
noncomputable def boxMean (L : Fin d → ℝ) (f : (Fin d → ℝ) → ℝ) : ℝ := (∏ i, L i)⁻¹ * ∫ x in Set.Icc 0 L, f x

/-- The momentum balance tested with `v`: mean of `(-(u.grad)u + f).v + p div v - nu grad u : grad v`. -/
noncomputable def momentumWork (L : Fin d → ℝ) (nu : ℝ) (u f v : Fin d → (Fin d → ℝ) → ℝ) (p : (Fin d → ℝ) → ℝ) : ℝ :=
  boxMean L fun x => ∑ i, ((-(∑ j, u j x * pderiv j (u i) x) + f i x) * v i x + p x * pderiv i (v i) x
    - nu * ∑ j, pderiv j (u i) x * pderiv j (v i) x)

/-- The induction equation tested with `v`: mean of `((b.grad)u - (u.grad)b).v - eta grad b : grad v`. -/
noncomputable def inductionWork (L : Fin d → ℝ) (eta : ℝ) (u b v : Fin d → (Fin d → ℝ) → ℝ) : ℝ :=
  boxMean L fun x => ∑ i, ((∑ j, b j x * pderiv j (u i) x - ∑ j, u j x * pderiv j (b i) x) * v i x
    - eta * ∑ j, pderiv j (b i) x * pderiv j (v i) x)

/-- Transport and diffusion of a scalar tested with `q`: mean of `-(u.grad)rho q - kappa grad rho . grad q`. -/
noncomputable def scalarWork (L : Fin d → ℝ) (kappa : ℝ) (u : Fin d → (Fin d → ℝ) → ℝ) (rho q : (Fin d → ℝ) → ℝ) : ℝ :=
  boxMean L fun x => -(∑ j, u j x * pderiv j rho x) * q x - kappa * ∑ j, pderiv j rho x * pderiv j q x

end SpectralDNS.Spec

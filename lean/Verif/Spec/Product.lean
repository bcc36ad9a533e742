import Mathlib.Analysis.SpecialFunctions.Complex.Circle
import Mathlib.Data.Fintype.Pi
import Mathlib.Data.Fintype.BigOperators

/-! # Specification: trigonometric polynomials, their grid coefficients and products -/

namespace SpectralDNS.Spec

open Complex

variable {d : ℕ}

/-- `exp(i p.x)` at a point of the grid with `M` points in the box of side `2 pi`. -/
noncomputable def wave (M : Fin d → ℕ) (p : Fin d → ℤ) (x : (i : Fin d) → Fin (M i)) : ℂ :=
  Complex.exp (2 * Real.pi * I * ∑ i, (p i : ℂ) * ((x i : ℕ) : ℂ) / (M i : ℂ))

/-- The field with coefficients `a` on the wavenumbers `S`. -/
noncomputable def field (M : Fin d → ℕ) (S : Finset (Fin d → ℤ)) (a : (Fin d → ℤ) → ℂ) (x : (i : Fin d) → Fin (M i)) : ℂ :=
  ∑ p ∈ S, a p * wave M p x

/-- The coefficient of a grid function computed on the grid. -/
noncomputable def coeff (M : Fin d → ℕ) (f : ((i : Fin d) → Fin (M i)) → ℂ) (k : Fin d → ℤ) : ℂ :=
  (1 / (Fintype.card ((i : Fin d) → Fin (M i)) : ℂ)) * ∑ x, f x * (starRingEnd ℂ) (wave M k x)

/-- The true coefficient of the product of two fields. -/
def productCoeff (S : Finset (Fin d → ℤ)) (a b : (Fin d → ℤ) → ℂ) (k : Fin d → ℤ) : ℂ :=
  ∑ p ∈ S, ∑ q ∈ S, if p + q = k then a p * b q else 0

/-- The grid `M` computes quadratic products of fields on `S` without aliasing on `S`. -/
def AliasFree (M : Fin d → ℕ) (S : Finset (Fin d → ℤ)) : Prop :=
  ∀ a b : (Fin d → ℤ) → ℂ, ∀ k ∈ S, coeff M (fun x => field M S a x * field M S b x) k = productCoeff S a b k

end SpectralDNS.Spec

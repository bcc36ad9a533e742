import Verif.Spec.MHD

/-!
# Specification of the quadratic invariants of ideal flows and of the product rule on a grid
-/

namespace SpectralDNS.Spec

open Complex

variable {d : ℕ} {ι X : Type*}

/-- `sum_k w_k Re(conj a_k b_k)`: the mean over the box of the product of two real fields. -/
noncomputable def inner [Fintype ι] (w : ι → ℝ) (a b : ι → ℂ) : ℝ := ∑ k, w k * ((starRingEnd ℂ) (a k) * b k).re

/-- Mean of `grad u : grad v`. -/
noncomputable def dissipation2 [Fintype ι] (w : ι → ℝ) (K : Fin d → ι → ℝ) (u v : Fin d → ι → ℂ) : ℝ :=
  ∑ i, ∑ k, w k * normSq (at' K k) * ((starRingEnd ℂ) (u i k) * v i k).re

/-- Derivative along axis `j` in Fourier space. -/
noncomputable def deriv (K : Fin d → ι → ℝ) (j : Fin d) (a : ι → ℂ) : ι → ℂ := fun k => I * K j k * a k

/-- The derivative of the product of three fields from `Ok` has mean zero on the grid: products of three fields are not aliased onto the mean. -/
def Leibniz [Fintype X] (B : (ι → ℂ) → X → ℝ) (K : Fin d → ι → ℝ) (Ok : (ι → ℂ) → Prop) : Prop :=
  ∀ j a b c, Ok a → Ok b → Ok c →
    ∑ x, (B (deriv K j a) x * B b x * B c x + B a x * B (deriv K j b) x * B c x + B a x * B b x * B (deriv K j c) x) = 0

/-- Helicity, the mean of `u . curl u`. -/
noncomputable def helicity [Fintype ι] (w : ι → ℝ) (K : Fin 3 → ι → ℝ) (u : Fin 3 → ι → ℂ) : ℝ := ∑ i, inner w (u i) (curl K u i)

/-- Cross helicity, the mean of `u . b`. -/
noncomputable def crossHelicity [Fintype ι] (w : ι → ℝ) (u b : Fin 3 → ι → ℂ) : ℝ := ∑ i, inner w (u i) (b i)

/-- Vector potential `i k x b / |k|^2` of a field with zero mean. -/
noncomputable def potential (K : Fin 3 → ι → ℝ) (b : Fin 3 → ι → ℂ) : Fin 3 → ι → ℂ :=
  fun i k => curl K b i k / (normSq (at' K k) : ℂ)

/-- Magnetic helicity, the mean of `a . b` with the vector potential `a`. -/
noncomputable def magneticHelicity [Fintype ι] (w : ι → ℝ) (K : Fin 3 → ι → ℝ) (b : Fin 3 → ι → ℂ) : ℝ :=
  ∑ i, inner w (potential K b i) (b i)

/-- Vorticity in two dimensions. -/
noncomputable def vorticity (K : Fin 2 → ι → ℝ) (u : Fin 2 → ι → ℂ) : ι → ℂ := fun k => I * (K 0 k * u 1 k - K 1 k * u 0 k)

/-- Half the mean square of a scalar. -/
noncomputable def variance [Fintype ι] (w : ι → ℝ) (a : ι → ℂ) : ℝ := 1 / 2 * inner w a a

/-- Mean square gradient of a scalar. -/
noncomputable def gradSq [Fintype ι] (w : ι → ℝ) (K : Fin d → ι → ℝ) (a : ι → ℂ) : ℝ := ∑ j, inner w (deriv K j a) (deriv K j a)

end SpectralDNS.Spec

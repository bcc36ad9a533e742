import Verif.Spec.Invariants

/-!
# Specification of the departure of a field from its mean
-/

namespace SpectralDNS.Spec

variable {d : ℕ} {ι : Type*}

open Classical in
/-- The departure of a field from its mean: the coefficients at zero wavenumber are removed. -/
noncomputable def fluctuation (K : Fin d → ι → ℝ) (a : ι → ℂ) : ι → ℂ := fun k => if ∀ i, K i k = 0 then 0 else a k

end SpectralDNS.Spec

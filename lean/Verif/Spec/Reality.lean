import Verif.Spec.Fourier

/-! # Specification: Hermitian symmetry of the coefficients of real fields -/

namespace SpectralDNS.Spec

open Complex

variable {d : ℕ} {ι : Type*}

/-- `R k k'` says that the array stores the mode `-k` of `k` at index `k'`.  Hermitian symmetry: `u(-k) = conj u(k)`. -/
def Hermitian (R : ι → ι → Prop) (u : Fin d → ι → ℂ) : Prop := ∀ k k', R k k' → ∀ i, u i k' = (starRingEnd ℂ) (u i k)

/-- Fields with Hermitian symmetry form a real linear space. -/
def hermitian (R : ι → ι → Prop) : Submodule ℝ (Fin d → ι → ℂ) where
  carrier := {u | Hermitian R u}
  add_mem' := by intro a b ha hb k k' h i; simp [ha k k' h i, hb k k' h i]
  zero_mem' := by intro k k' h i; simp
  smul_mem' := by intro c a ha k k' h i; simp [ha k k' h i]

/-- Fields vanishing on a set of modes. -/
def vanishing (d : ℕ) (Z : ι → Prop) : Submodule ℝ (Fin d → ι → ℂ) where
  carrier := {u | ∀ k, Z k → ∀ i, u i k = 0}
  add_mem' := by intro a b ha hb k h i; simp [ha k h i, hb k h i]
  zero_mem' := by intro k h i; simp
  smul_mem' := by intro c a ha k h i; simp [ha k h i]

end SpectralDNS.Spec

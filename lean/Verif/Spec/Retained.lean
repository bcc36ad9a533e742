import Verif.Model.Fourier

/-!
# Coefficients on two meshes
-/

namespace SpectralDNS.Spec

open Periodic

/-- The arrays of two meshes have the same coefficient at every wavenumber vector that both store. -/
def SameModes {n : ℕ} {N N' : Fin (n + 1) → ℕ} (a : RModes N → ℂ) (a' : RModes N' → ℂ) : Prop :=
  ∀ k k', (∀ i, waves N i k = waves N' i k') → a k = a' k'

/-- The same for arrays with an entry of any kind, such as the coefficients of a function between the walls, for every wavenumber vector. -/
def SameColumns {n : ℕ} {N N' : Fin (n + 1) → ℕ} {V : Type*} (a : RModes N → V) (a' : RModes N' → V) : Prop :=
  ∀ k k', (∀ i, waves N i k = waves N' i k') → a k = a' k'

/-- The mesh that stores the wavenumbers up to `c` along every axis, and no others. -/
def meshOf {n : ℕ} (c : Fin (n + 1) → ℕ) : Fin (n + 1) → ℕ := fun i => 2 * c i + 1

end SpectralDNS.Spec

import Verif.Model.Channel
import Mathlib.Analysis.SpecialFunctions.Trigonometric.Basic
import Mathlib.Data.List.Range
import Mathlib.Algebra.Polynomial.AlgebraMap

/-!
# demo/LaminarChannel.py: start from rest, driving force and the analytical solutions

Plotting and the gathering of the profile on rank 0 are not modelled.  `np.pi` is `π`.
-/

namespace SpectralDNS.Laminar

open Channel Real

variable {κ B D : Type*} [AddCommGroup B] [Module ℂ B] [AddCommGroup D] [Module ℂ D]

/-- Body of the loop of `exact` (LaminarChannel.py:23-26) at one point `x`. -/
noncomputable def exactBody (nu t x u : ℝ) (i : ℕ) : ℝ :=
  let lam_k := (2 * (i : ℝ) - 1) * π / 2
  let lam_kp := (2 * ((i : ℝ) + 1) - 1) * π / 2
  let u := u - cos (lam_k * x) * exp (-nu * lam_k ^ 2 * t) / lam_k ^ 3
  u + cos (lam_kp * x) * exp (-nu * lam_kp ^ 2 * t) / lam_kp ^ 3

/-- `exact(x, Re, t, num_terms)` at one point `x` (LaminarChannel.py:19-29); `nu` is `config.params.nu`. -/
noncomputable def exact (nu x Re t : ℝ) (num_terms : ℕ) : ℝ :=
  let beta := 2 / Re
  let u := (List.range' 1 num_terms 2).foldl (exactBody nu t x) 0
  let u := u * ((2 * beta) / nu)
  u + beta / 2 / nu * (1 - x ^ 2)

/-- Body of the loop of `reference` (LaminarChannel.py:35-38) on the pair `(u, c)`. -/
noncomputable def referenceBody (Re t : ℝ) (s : ℝ × ℝ) (n : ℕ) : ℝ × ℝ :=
  let a := 32 / (π ^ 3 * (n : ℝ) ^ 3)
  let b := (0.25 / Re) * π ^ 2 * (n : ℝ) ^ 2
  let c := -s.2
  (s.1 + a * exp (-b * t) * c, c)

/-- `reference(Re, t, num_terms)` (LaminarChannel.py:31-39). -/
noncomputable def reference (Re t : ℝ) (num_terms : ℕ) : ℝ := ((List.range' 1 num_terms 2).foldl (referenceBody Re t) (1, 1)).1

/-- The error that `update` and `regression_test` print (LaminarChannel.py:77-90, 92-112): `x` is `x0`, the wall-normal grid points, and `u` is
`uall`, the column `U[1, :, 0, 0]` put together from all ranks. -/
noncomputable def printedError {N : ℕ} (x u : Fin N → ℝ) (nu Re t : ℝ) (num_terms : ℕ) : ℝ :=
  sqrt ((∑ j, (u j - exact nu (x j) Re t num_terms) ^ 2) / N)

/-- `initialize` (LaminarChannel.py:9-11) on a context as created by `get_context` (KMM.py:63-80, all arrays zero). -/
def start : St κ B D := ⟨⟨0, 0, 0⟩, 0, ⟨0, 0, 0⟩, ⟨0, 0, 0⟩, ⟨0, 0, 0⟩, ⟨0, 0, 0⟩⟩

/-- The same for KMMRK3. -/
def start3 : St3 κ B D := ⟨⟨0, 0, 0⟩, 0, ⟨0, 0, 0⟩, 0, 0, 0, 0⟩

/-- `set_Source` (LaminarChannel.py:13-17): `Sk[1, :, 0, 0]`, `test` being the scalar product with the Dirichlet basis. -/
noncomputable def set_Source (test : Polynomial ℂ →ₗ[ℂ] D) (Re : ℝ) : D := test (Polynomial.C ((-2 / Re : ℝ) : ℂ))

end SpectralDNS.Laminar

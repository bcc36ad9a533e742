import Verif.Model.ChebPoisson

/-!
# The Poisson solver of sandbox/cheb_poisson_sft.py

The problem of cheb_poisson.py, with the transforms of a function space.  `N` is the number of points (script line 31, 21; here any), `fj` any numbers.

`ShenDirichletFunctionSpace` is not in the repository (line 33 uses a name which the script does not import).  It is modelled by the description in lines 6-10: the scalar
products with the `N-2` basis functions, which leave the last two entries of the array alone (line 65 has set them to zero), `backward`, which looks at
the first `N-2` coefficients, and `wavenumbers(N)`, the numbers from 0 to `N-3`.  The branch "bs" uses a matrix that is not in the repository, and is left out.
The branches "banded" and "sparse" (lines 44-56) are line by line `solve` of cheb_poisson.py, but for the `N` of line 42.
-/

namespace SpectralDNS.Sandbox.Sft

open Finset

/-- `f_hat` (lines 65-66), an array of `N` numbers. -/
noncomputable def f_hat (N : ℕ) (fj : ℕ → ℝ) (k : ℕ) : ℝ := if k < N - 2 then fastShenScalar false N fj k else 0

/-- `solve` (lines 40-63) of an array of `len` numbers, with `banded` for the branch "banded" and otherwise "sparse"; its `N` is `len(fk)+2` (line 42). -/
noncomputable def solve (banded : Bool) (len : ℕ) (fk : ℕ → ℝ) : ℕ → ℝ := Sandbox.solve (len + 2) fk banded

/-- `uq` (lines 65-69). -/
noncomputable def uq (banded : Bool) (N : ℕ) (fj : ℕ → ℝ) (j : ℕ) : ℝ :=
  ∑ k ∈ range (N - 2), V N k j * solve banded N (f_hat N fj) k

end SpectralDNS.Sandbox.Sft

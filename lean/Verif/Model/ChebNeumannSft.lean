import Verif.Model.ChebPoissonNeumann

/-!
# The Poisson solver of sandbox/cheb_poisson_neumann_sft.py

The problem of cheb_poisson_neumann.py, with the transforms of a function space that is not in the repository.  Modelled here is `solve_neumann` (lines 40-58); its
banded branch is line by line `solve_neumann` of cheb_poisson_neumann.py.  `k` are the numbers from 0 to `N-3`.  Lines 9 and 32 (an import of a missing module and a name
that is not imported, at which the script stops) are left out: `k`, `N` and `banded` are taken as given.  scipy's `diags` fails if the number of diagonals is
not the number of offsets.
-/

namespace SpectralDNS.Sandbox.Neumann.Sft

open Real

/-- `aij` (lines 51-53); the loop is `range(2, N-2, 2)`, and `k[1:-i][m]` is `m+1`. -/
noncomputable def aij (N : ℕ) : List (ℕ → ℝ) :=
  let aij : List (ℕ → ℝ) := [fun m => -2 * π * (((m + 1 : ℕ) : ℝ) + 1) * ((m + 1 : ℕ) : ℝ) ^ 2 / (((m + 1 : ℕ) : ℝ) + 2)]
  aij ++ (List.range' 2 ((N - 3) / 2) 2).map fun (i m : ℕ) =>
    -4 * π * (((m + 1 : ℕ) : ℝ) + i) ^ 2 * (((m + 1 : ℕ) : ℝ) + 1) / (((m + 1 : ℕ) : ℝ) + 2) ^ 2

/-- The offsets `range(0, N-3, 2)` (line 54). -/
def offsets (N : ℕ) : List ℕ := List.range' 0 ((N - 2) / 2) 2

/-- `A` of the sparse branch (line 54). -/
noncomputable def A (N : ℕ) : Option (ℕ → ℕ → ℝ) := if (aij N).length = (offsets N).length then some (diags ((aij N).zip (offsets N))) else none

/-- `solve_neumann` (lines 40-58), its first result, with the switch `banded` (line 31). -/
noncomputable def solve_neumann (banded : Bool) (N : ℕ) (f : ℕ → ℝ) : Option (ℕ → ℝ) :=
  if banded then some (solveNeumann N f) else (A N).map fun A => linsolve (N - 3) A f

end SpectralDNS.Sandbox.Neumann.Sft

import Verif.Model.ChebPoissonNeumann

/-!
# The naive Helmholtz solver of sandbox/cheb_helmholtz_neumann_sft.py

`-u'' + kx² u = f` with `u' = 0` at both ends.  Modelled here is the branch `solver == "sparse"` of `solve` (lines 140-157).  The branch `"lu"` calls compiled routines
that are not in the repository.  `k` are the numbers from 0 to `N-3`, as floats.  The function spaces (lines 63-64, names that are not imported) are left out; of `ST` only the
switch `ST.quad == "GC"` is used here.
-/

namespace SpectralDNS.Sandbox.Neumann.Helm

open Real

/-- `aij` (lines 144-146); the loop is `range(2, N-3, 2)`, and `k[1:-i][m]` is `m+1`. -/
noncomputable def aij (N : ℕ) : List (ℕ → ℝ) :=
  let aij : List (ℕ → ℝ) := [fun m => 2 * π * (((m + 1 : ℕ) : ℝ) + 1) / (((m + 1 : ℕ) : ℝ) + 2)]
  aij ++ (List.range' 2 ((N - 4) / 2) 2).map fun (_ m : ℕ) => 4 * π * (((m + 1 : ℕ) : ℝ) + 1) / (((m + 1 : ℕ) : ℝ) + 2) ^ 2

/-- The offsets `range(0, N-3, 2)` (line 147). -/
def offsets (N : ℕ) : List ℕ := List.range' 0 ((N - 2) / 2) 2

/-- `A` (line 147). -/
noncomputable def A (N : ℕ) : Option (ℕ → ℕ → ℝ) := if (aij N).length = (offsets N).length then some (diags ((aij N).zip (offsets N))) else none

/-- `B` (lines 149-154); `gc` is `ST.quad == "GC"`.  `k[3:][m]` is `m+3`.  The offsets are -2, 0 and 2. -/
noncomputable def B (gc : Bool) (N : ℕ) : ℕ → ℕ → ℝ :=
  let ck : ℕ → ℝ := fun _ => 1
  let ck := if gc then Function.update ck (N - 4) 2 else ck
  let bij : ℕ → ℝ := fun m => π / 2 * 1 * (1 + ck m * (((m + 1 : ℕ) : ℝ) / (((m + 1 : ℕ) : ℝ) + 2)) ^ 4) / ((m + 1 : ℕ) : ℝ) ^ 2
  let bio : ℕ → ℝ := fun m => -π / 2 * 1 * (((m + 1 : ℕ) : ℝ) / (((m + 1 : ℕ) : ℝ) + 2)) ^ 2 / (((m + 1 : ℕ) : ℝ) + 2) ^ 2
  let biu : ℕ → ℝ := fun m => -π / 2 * 1 * ((((m + 3 : ℕ) : ℝ) - 2) / ((m + 3 : ℕ) : ℝ)) ^ 2 / (((m + 3 : ℕ) : ℝ) - 2) ^ 2
  triMatrix biu bij bio

/-- `solve` with `solver == "sparse"` (lines 140-157); `fk[1:-2][m]` is `fk[m+1]`. -/
noncomputable def solve (gc : Bool) (N : ℕ) (kx : ℝ) (fk : ℕ → ℝ) : Option (ℕ → ℝ) :=
  (A N).map fun A =>
    let uk_hat := linsolve (N - 3) (fun i j => A i j + kx ^ 2 * B gc N i j) fun m => fk (m + 1)
    fun m => uk_hat m / ((m + 1 : ℕ) : ℝ) ^ 2

end SpectralDNS.Sandbox.Neumann.Helm

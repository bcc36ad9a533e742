import Verif.Model.ChebPoisson

/-!
# The branch "sparse-even/odd" of sandbox/cheb_helmholtz_sft.py

`-u'' + kx^2 u = f`, `u(1) = u(-1) = 0`, with `N` Gauss-Lobatto points (script lines 38-41: `N = 16`, `quad="GL"`; here any `N ≥ 4`): the equations for the
coefficients with even and with odd numbers are written down and solved separately (lines 57-84).  The script is written for Python 2 (line 101), so that `/` of
integers rounds down (lines 58, 70).  Arithmetic is exact.  The names of the script are kept.

scipy's `diags` and `spsolve` are modelled by what their documentation says; `spsolve` fails if the length of the right-hand side is not that of the matrix.
The other branches use modules that are not in the repository and are not modelled here.
-/

namespace SpectralDNS.Sandbox.EvenOdd

open Real

/-- `A_e` (lines 59-63). -/
noncomputable def A_e (M : ℕ) : ℕ → ℕ → ℝ :=
  let aij_e : List (ℕ → ℝ) := [fun m => 2 * π * (2 * (m : ℝ) + 1) * (2 * m + 2)]
  let aij_e : List (ℕ → ℝ) := aij_e ++ (List.range' 1 M).map fun _ (m : ℕ) => 4 * π * (2 * (m : ℝ) + 1)
  diags (aij_e.zip (List.range' 0 (M + 1)))

/-- `A_o` (lines 71-75). -/
noncomputable def A_o (Mo : ℕ) : ℕ → ℕ → ℝ :=
  let aij_o : List (ℕ → ℝ) := [fun m => 2 * π * (2 * (m : ℝ) + 2) * (2 * m + 3)]
  let aij_o : List (ℕ → ℝ) := aij_o ++ (List.range' 1 Mo).map fun _ (m : ℕ) => 4 * π * (2 * (m : ℝ) + 2)
  diags (aij_o.zip (List.range' 0 (Mo + 1)))

/-- `diags([l, d, u], range(-1, 2, 1))` (lines 68 and 80); column `j` of the lower diagonal holds `l[j]`. -/
def tridiags (l d u : ℕ → ℝ) (i j : ℕ) : ℝ := if i = j then d i else if i = j + 1 then l j else if j = i + 1 then u i else 0

/-- `B_e` (lines 64-68). -/
noncomputable def B_e (N M : ℕ) : ℕ → ℕ → ℝ :=
  let bij_e : ℕ → ℝ := fun _ => π
  let bij_e := Function.update bij_e 0 (bij_e 0 * 1.5)
  let bij_e := if N % 2 = 1 then Function.update bij_e M (bij_e M * 1.5) else bij_e
  let bio_e : ℕ → ℝ := fun _ => -π / 2
  tridiags bio_e bij_e bio_e

/-- `B_o` (lines 76-80). -/
noncomputable def B_o (N Mo : ℕ) : ℕ → ℕ → ℝ :=
  let bij_o : ℕ → ℝ := fun _ => π
  let bij_o := if N % 2 = 0 then Function.update bij_o Mo (bij_o Mo * 1.5) else bij_o
  let bio_o : ℕ → ℝ := fun _ => -π / 2
  tridiags bio_o bij_o bio_o

/-- `la.spsolve(A, d)` with a matrix of `m` rows and a vector of `len` numbers. -/
noncomputable def spsolve (m : ℕ) (A : ℕ → ℕ → ℝ) (len : ℕ) (d : ℕ → ℝ) : Option (ℕ → ℝ) :=
  if len = m then some (linsolve m A d) else none

/-- The branch "sparse-even/odd" of `solve` (lines 57-84) for an array `fk` of `len` numbers; `fk[::2]` has `(len+1)/2` of them, `fk[1::2]` the others. -/
noncomputable def solve (N : ℕ) (kx : ℝ) (len : ℕ) (fk : ℕ → ℝ) : Option (ℕ → ℝ) :=
  let M := (N - 3) / 2
  let Mo := (N - 4) / 2
  (spsolve (M + 1) (fun i j => A_e M i j + kx ^ 2 * B_e N M i j) ((len + 1) / 2) fun m => fk (2 * m)).bind fun even =>
  (spsolve (Mo + 1) (fun i j => A_o Mo i j + kx ^ 2 * B_o N Mo i j) (len / 2) fun m => fk (2 * m + 1)).bind fun odd =>
  some fun k => if k % 2 = 0 then even (k / 2) else odd (k / 2)

/-- The call of `solve` in the script (lines 158-161): `f_hat` is a copy of `fj`, an array of `N` numbers. -/
noncomputable def called (N : ℕ) (kx : ℝ) (f_hat : ℕ → ℝ) : Option (ℕ → ℝ) := solve N kx N f_hat

end SpectralDNS.Sandbox.EvenOdd

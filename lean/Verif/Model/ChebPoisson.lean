import Mathlib.RingTheory.Polynomial.Chebyshev
import Mathlib.Analysis.SpecialFunctions.Trigonometric.Basic
import Mathlib.LinearAlgebra.Matrix.NonsingularInverse

/-!
# The stand-alone Poisson solver of sandbox/cheb_poisson.py

Arrays are functions of the index; entries past the length of the array are never looked at.  `N` is the number of points (script line 34,
`N = 20`; here any).  Arithmetic is exact.  The names of the script are kept.

Not in the repository, and modelled by what its documentation says it returns: numpy's `chebgauss` and `chebvander`, scipy's `dct`,
`solve_banded`, `diags`, `spsolve`, and the module `TDMA`.  The script is written for Python 2 (line 140).
-/

namespace SpectralDNS.Sandbox

open Polynomial Polynomial.Chebyshev Real Finset

/-- scipy's `dct(f, 2)` of `N` numbers, not normalised. -/
noncomputable def dct2 (N : ℕ) (f : ℕ → ℝ) : ℕ → ℝ := fun k => 2 * ∑ j ∈ range N, f j * cos (π * k * (2 * j + 1) / (2 * N))

/-- scipy's `dct(f, 3)` of `N` numbers, not normalised. -/
noncomputable def dct3 (N : ℕ) (f : ℕ → ℝ) : ℕ → ℝ := fun k => f 0 + 2 * ∑ n ∈ Ico 1 N, f n * cos (π * n * (2 * k + 1) / (2 * N))

/-- `points` of `n_cheb.chebgauss(N)` (line 36). -/
noncomputable def points (N j : ℕ) : ℝ := cos (π * (2 * j + 1) / (2 * N))

/-- `weights` of `n_cheb.chebgauss(N)` (line 36); they are all the same. -/
noncomputable def weights (N : ℕ) : ℝ := π / N

/-- `V` (line 41): the basis functions `T_k - T_{k+2}`, `k < N-2`, at the points. -/
noncomputable def V (N k j : ℕ) : ℝ := (T ℝ (k : ℤ)).eval (points N j) - (T ℝ ((k + 2 : ℕ) : ℤ)).eval (points N j)

/-- `fastChebScalar` (lines 46-47). -/
noncomputable def fastChebScalar (N : ℕ) (fj : ℕ → ℝ) : ℕ → ℝ := fun k => dct2 N fj k * π / (2 * N)

/-- `fastChebTrans` (lines 49-53). -/
noncomputable def fastChebTrans (N : ℕ) (fj : ℕ → ℝ) : ℕ → ℝ :=
  let cj := fun k => dct2 N fj k / N
  Function.update cj 0 (cj 0 / 2)

/-- `ifastChebTrans` (lines 55-58). -/
noncomputable def ifastChebTrans (N : ℕ) (fj : ℕ → ℝ) : ℕ → ℝ := fun j => 0.5 * dct3 N fj j + 0.5 * fj 0

/-- The body of the loop of `chebDerivativeCoefficients` (line 66). -/
def derivStep (f_k f_1 : ℕ → ℝ) (k : ℕ) : ℕ → ℝ := Function.update f_1 k (2 * ((k : ℝ) + 1) * f_k (k + 1) + f_1 (k + 2))

/-- `chebDerivativeCoefficients` (lines 60-68) of an array of `len` numbers; the loop is `range(N-2, 0, -1)` with `N = len - 1`. -/
noncomputable def chebDerivativeCoefficients (len : ℕ) (f_k : ℕ → ℝ) : ℕ → ℝ :=
  let N := len - 1
  let f_1 := Function.update f_k (len - 1) 0
  let f_1 := Function.update f_1 (len - 2) (2 * (N : ℝ) * f_k (len - 1))
  let f_1 := (List.range' 1 (N - 2)).reverse.foldl (derivStep f_k) f_1
  Function.update f_1 0 (f_k 1 + 0.5 * f_1 2)

/-- `fastChebDerivative` (lines 70-74). -/
noncomputable def fastChebDerivative (N : ℕ) (fj : ℕ → ℝ) : ℕ → ℝ :=
  ifastChebTrans N (chebDerivativeCoefficients N (fastChebTrans N fj))

/-- `fastShenScalar` (lines 109-115), with the switch `fast_transform` (line 32). -/
noncomputable def fastShenScalar (fast_transform : Bool) (N : ℕ) (fj : ℕ → ℝ) : ℕ → ℝ :=
  if fast_transform then
    let u_k := fastChebScalar N fj
    fun k => u_k k - u_k (k + 2)
  else fun k => ∑ j ∈ range N, V N k j * (fj j * weights N)

/-- The solution of `m` linear equations with matrix `A` and right-hand side `d` (what `solve_banded`, `spsolve` and `TDMA_1D` return). -/
noncomputable def linsolve (m : ℕ) (A : ℕ → ℕ → ℝ) (d : ℕ → ℝ) : ℕ → ℝ := fun k =>
  if h : k < m then ((Matrix.of fun i j : Fin m => A i j)⁻¹.mulVec fun i => d i) ⟨k, h⟩ else 0

/-- The matrix with diagonal `b`, and with `a` and `c` two places below and above the diagonal: the argument of `TDMA_1D(a, b, c, d)`. -/
def triMatrix (a b c : ℕ → ℝ) (i j : ℕ) : ℝ := if i = j then b i else if i = j + 2 then a j else if j = i + 2 then c i else 0

/-- `fastShenTrans` (lines 76-85). -/
noncomputable def fastShenTrans (fast_transform : Bool) (N : ℕ) (fj : ℕ → ℝ) : ℕ → ℝ :=
  let cj := fastShenScalar fast_transform N fj
  let ck : ℕ → ℝ := Function.update (fun _ => 1) 0 2
  let a : ℕ → ℝ := fun _ => 1 * (-π / 2)
  let b : ℕ → ℝ := fun k => π / 2 * (ck k + 1)
  let c := a
  linsolve (N - 2) (triMatrix a b c) cj

/-- `w_hat` of `ifastShenTrans` (lines 95-98). -/
def wHat (N : ℕ) (fk : ℕ → ℝ) : ℕ → ℝ :=
  let w_hat : ℕ → ℝ := fun k => if k < N - 2 then fk k - (if k < 2 then 0 else fk (k - 2)) else 0
  let w_hat := Function.update w_hat (N - 2) (w_hat (N - 2) - fk (N - 4))
  Function.update w_hat (N - 1) (w_hat (N - 1) - fk (N - 3))

/-- `ifastShenTrans` (lines 87-107). -/
noncomputable def ifastShenTrans (fast_transform : Bool) (N : ℕ) (fk : ℕ → ℝ) : ℕ → ℝ :=
  if fast_transform then ifastChebTrans N (wHat N fk)
  else fun j => ∑ k ∈ range (N - 2), V N k j * fk k

/-- One pass of the loop of the banded branch of `solve` (line 124): `A[-i-1, i:] = -4*np.pi*(k[:-i]+1)`. -/
noncomputable def bandStep (N : ℕ) (A : ℕ → ℕ → ℝ) (i : ℕ) : ℕ → ℕ → ℝ := fun r j =>
  if r = N - 2 - i - 1 ∧ i ≤ j then -4 * π * (((j - i : ℕ) : ℝ) + 1) else A r j

/-- `A` of the banded branch (lines 121-124), the diagonals in rows; the loop is `range(2, N-2, 2)`. -/
noncomputable def bandStorage (N : ℕ) : ℕ → ℕ → ℝ :=
  let A : ℕ → ℕ → ℝ := fun r j => if r = N - 2 - 1 then -2 * π * ((j : ℝ) + 1) * (j + 2) else 0
  (List.range' 2 ((N - 3) / 2) 2).foldl (bandStep N) A

/-- The matrix that `solve_banded((0, u), ab, ·)` solves with. -/
def bandMatrix (u : ℕ) (ab : ℕ → ℕ → ℝ) (i j : ℕ) : ℝ := if i ≤ j ∧ j - i ≤ u then ab (u + i - j) j else 0

/-- scipy's `diags(aij, offsets)`. -/
def diags (l : List ((ℕ → ℝ) × ℕ)) : ℕ → ℕ → ℝ := l.foldl (fun A d i j => if j = i + d.2 then d.1 i else A i j) fun _ _ => 0

/-- `A` of the sparse branch (lines 128-131). -/
noncomputable def sparseMatrix (N : ℕ) : ℕ → ℕ → ℝ :=
  let aij : List (ℕ → ℝ) := [fun k => -2 * π * ((k : ℝ) + 1) * (k + 2)]
  let aij : List (ℕ → ℝ) := aij ++ (List.range' 2 ((N - 3) / 2) 2).map fun _ (k : ℕ) => -4 * π * ((k : ℝ) + 1)
  diags (aij.zip (List.range' 0 ((N - 1) / 2) 2))

/-- `solve` (lines 118-134), its first result. -/
noncomputable def solve (N : ℕ) (fj : ℕ → ℝ) (banded : Bool) : ℕ → ℝ :=
  if banded then linsolve (N - 2) (bandMatrix (N - 3) (bandStorage N)) fj
  else linsolve (N - 2) (sparseMatrix N) fj

/-- `uq` of the script (lines 136-138) for the right-hand side `fj` at the points. -/
noncomputable def poisson (banded fast_transform : Bool) (N : ℕ) (fj : ℕ → ℝ) : ℕ → ℝ :=
  let f_hat := fastShenScalar fast_transform N fj
  let uk_hat := solve N f_hat banded
  ifastShenTrans fast_transform N uk_hat

end SpectralDNS.Sandbox

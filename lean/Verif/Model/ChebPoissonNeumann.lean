import Verif.Model.ChebPoisson

/-!
# The stand-alone Poisson solver of sandbox/cheb_poisson_neumann.py

Conventions as in `Model/ChebPoisson.lean`.  `N` is the number of points (script line 30, `N = 50`; here any).  The arrays of coefficients
start with the coefficient of the basis function number 1 (script line 40).
-/

namespace SpectralDNS.Sandbox.Neumann

open Polynomial Polynomial.Chebyshev Real Finset

/-- scipy's `dct(f, 1)` of `N` numbers, not normalised. -/
noncomputable def dct1 (N : ℕ) (f : ℕ → ℝ) : ℕ → ℝ := fun k =>
  f 0 + (-1) ^ k * f (N - 1) + 2 * ∑ n ∈ Ico 1 (N - 1), f n * cos (π * k * n / (N - 1))

/-- `points` (line 33): `n_cheb.chebpts2(N)[::-1]`. -/
noncomputable def points (N j : ℕ) : ℝ := cos (π * j / (N - 1))

/-- `weights` (lines 34-36). -/
noncomputable def weights (N : ℕ) : ℕ → ℝ :=
  let w : ℕ → ℝ := fun _ => 0 + π / (N - 1)
  let w := Function.update w 0 (w 0 / 2)
  Function.update w (N - 1) (w (N - 1) / 2)

/-- `(k/(k+2))**2` (lines 39, 47, 48, 67, 76-78). -/
noncomputable def ratio (k : ℕ) : ℝ := ((k : ℝ) / (k + 2)) ^ 2

/-- `V` (lines 39-40): the basis functions number 1 to `N-3` at the points. -/
noncomputable def V (N i j : ℕ) : ℝ :=
  (T ℝ ((i + 1 : ℕ) : ℤ)).eval (points N j) - ratio (i + 1) * (T ℝ ((i + 3 : ℕ) : ℤ)).eval (points N j)

/-- `fastShenScalarNeumann` (lines 59-68). -/
noncomputable def fastShenScalarNeumann (N : ℕ) (fj : ℕ → ℝ) : ℕ → ℝ :=
  let ck : ℕ → ℝ := fun k => dct1 N fj k * (π / ((N - 1) * 2))
  let ck : ℕ → ℝ := fun k => ck k - ratio k * ck (k + 2)
  fun i => ck (i + 1)

/-- `fastShenTransNeumann` (lines 42-51); the array `ck` of line 46 is not used by the script. -/
noncomputable def fastShenTransNeumann (N : ℕ) (fj : ℕ → ℝ) : ℕ → ℝ :=
  let cj := fastShenScalarNeumann N fj
  let a : ℕ → ℝ := fun i => 1 * (-π / 2) * ratio (i + 1)
  let b : ℕ → ℝ := fun i => π / 2 * (1 + ((i + 1 : ℕ) / (((i + 1 : ℕ) : ℝ) + 2)) ^ 4)
  let c := a
  linsolve (N - 3) (triMatrix a b c) cj

/-- `w_hat` of `ifastShenScalarNeumann` (lines 73-78). -/
noncomputable def wHat (N : ℕ) (fk : ℕ → ℝ) : ℕ → ℝ :=
  let f_hat : ℕ → ℝ := fun k => if k = 0 then 0 else fk (k - 1)
  let w_hat : ℕ → ℝ := fun k => if k < N - 2 then f_hat k - (if k < 2 then 0 else ratio (k - 2) * f_hat (k - 2)) else 0
  let w_hat := Function.update w_hat (N - 2) (-(ratio (N - 4)) * f_hat (N - 4))
  Function.update w_hat (N - 1) (-(ratio (N - 3)) * f_hat (N - 3))

/-- `ifastShenScalarNeumann` (lines 70-83), which is `ifastShenTransNeumann` (lines 53-57). -/
noncomputable def ifastShenTransNeumann (N : ℕ) (fk : ℕ → ℝ) : ℕ → ℝ :=
  let w_hat := wHat N fk
  let fj : ℕ → ℝ := fun j => 0.5 * dct1 N w_hat j
  fun j => if j % 2 = 0 then fj j + 0.5 * w_hat (N - 1) else fj j - 0.5 * w_hat (N - 1)

/-- What lines 87 and 109 do to an array: the weighted mean is subtracted. -/
noncomputable def subtractMean (N : ℕ) (fj : ℕ → ℝ) : ℕ → ℝ := fun j =>
  fj j - (∑ i ∈ range N, fj i * weights N i) / ∑ i ∈ range N, weights N i

/-- One pass of the loop of `solve_neumann` (line 96): `A[-i-1, i:] = -4*np.pi*(k[:-i]+i)**2*(k[:-i]+1)/(k[:-i]+2)**2`. -/
noncomputable def bandStep (N : ℕ) (A : ℕ → ℕ → ℝ) (i : ℕ) : ℕ → ℕ → ℝ := fun r j =>
  if r = N - 2 - i - 1 ∧ i ≤ j then -4 * π * (((j - i : ℕ) : ℝ) + i) ^ 2 * (((j - i : ℕ) : ℝ) + 1) / (((j - i : ℕ) : ℝ) + 2) ^ 2 else A r j

/-- `A` of `solve_neumann` (lines 93-96); the loop is `range(2, N-3, 2)`. -/
noncomputable def bandStorage (N : ℕ) : ℕ → ℕ → ℝ :=
  let A : ℕ → ℕ → ℝ := fun r j => if r = N - 2 - 1 then -2 * π * ((j : ℝ) + 1) * j ^ 2 / (j + 2) else 0
  (List.range' 2 ((N - 4) / 2) 2).foldl (bandStep N) A

/-- `solve_neumann` (lines 91-100). -/
noncomputable def solveNeumann (N : ℕ) (f : ℕ → ℝ) : ℕ → ℝ :=
  linsolve (N - 3) (bandMatrix (N - 4) fun r j => bandStorage N (r + 1) (j + 1)) f

/-- `ff` of the script (lines 87-104) for the right-hand side `fj` at the points. -/
noncomputable def poisson (N : ℕ) (fj : ℕ → ℝ) : ℕ → ℝ :=
  let fj := subtractMean N fj
  let f_k : ℕ → ℝ := fun i => ∑ j ∈ range N, V N i j * (fj j * weights N j)
  let f_hat := solveNeumann N f_k
  ifastShenTransNeumann N f_hat

end SpectralDNS.Sandbox.Neumann

import Verif.Model.ChebPoisson

/-!
# The Helmholtz solver of sandbox/cheb_helmholtz_sft_nonhomo.py

`-u'' + kx^2 u = f`, `u(1) = a`, `u(-1) = b`, at the `N` Gauss-Chebyshev points (script lines 49-53: `N = 64`, `quad = "GC"`; here any `N`).  `kx`, `a`, `b`
(lines 39-44) and the values `fj` are any numbers.  Arithmetic is exact.  The names of the script are kept.

The modules `spectralDNS.shen.*` that the script imports are not in the repository, and line 52 uses the name `ShenDirichletFunctionSpace`, which the script does
not import.  The function space, the matrices and `Helmholtz` are modelled by the script's own description of them (lines 14-33): the basis, the
weighted inner products, and solvers that solve the system.  sympy, plots and the second pair of transforms (lines 93-96, 99) are left out.
-/

namespace SpectralDNS.Sandbox.Nonhomo

open Polynomial Polynomial.Chebyshev Real Finset

/-- `ADDmat` (line 65): the entries of `-(u'', phi_i)_w`. -/
noncomputable def ADDmat (i j : ℕ) : ℝ :=
  if i = j then 2 * π * ((i : ℝ) + 1) * (i + 2) else if i < j ∧ (j - i) % 2 = 0 then 4 * π * ((i : ℝ) + 1) else 0

/-- `BDDmat` with Gauss-Chebyshev quadrature (line 66): the entries of `(u, phi_i)_w`. -/
noncomputable def BDDmat : ℕ → ℕ → ℝ :=
  triMatrix (fun _ => -π / 2) (fun k => π / 2 * ((if k = 0 then 2 else 1) + 1)) fun _ => -π / 2

/-- What both branches of `solve` subtract from `fk` (lines 67-68 and 76-77). -/
noncomputable def subtract (kx a b : ℝ) (fk : ℕ → ℝ) : ℕ → ℝ :=
  let fk := Function.update fk 0 (fk 0 - kx ^ 2 * π / 2 * (a + b))
  Function.update fk 1 (fk 1 - kx ^ 2 * π / 4 * (a - b))

/-- `solve` (lines 60-80), both branches: `Helmholtz` solves the system that the branch "sparse" writes down. -/
noncomputable def solve (N : ℕ) (kx a b : ℝ) (fk : ℕ → ℝ) : ℕ → ℝ :=
  linsolve (N - 2) (fun i j => ADDmat i j + kx ^ 2 * BDDmat i j) (subtract kx a b fk)

/-- `uk_hat` (lines 85-87). -/
noncomputable def uk_hat (N : ℕ) (kx a b : ℝ) (f_hat : ℕ → ℝ) : ℕ → ℝ := fun k =>
  if k < N - 2 then solve N kx a b f_hat k else if k = N - 2 then a else b

/-- `ST.ifst`: the expansion in the basis of lines 22-24, whose last two functions are `(T_0 + T_1)/2` and `(T_0 - T_1)/2`. -/
noncomputable def ifst (N : ℕ) (c : ℕ → ℝ) (j : ℕ) : ℝ :=
  ∑ k ∈ range (N - 2), V N k j * c k + 0.5 * ((T ℝ 0).eval (points N j) + (T ℝ 1).eval (points N j)) * c (N - 2) +
    0.5 * ((T ℝ 0).eval (points N j) - (T ℝ 1).eval (points N j)) * c (N - 1)

/-- `uq` (lines 82-90). -/
noncomputable def uq (N : ℕ) (kx a b : ℝ) (fj : ℕ → ℝ) : ℕ → ℝ :=
  let f_hat := fastShenScalar false N fj
  ifst N (uk_hat N kx a b f_hat)

end SpectralDNS.Sandbox.Nonhomo

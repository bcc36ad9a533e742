import Verif.Model.MKM

/-!
# demo/OrrSommerfeld.py and demo/OrrSommerfeld_shen.py (the same files are in tests/)

`scipy.linalg.eig` and `numpy.argsort` are parameters of the theorems.  Plotting and output are not modelled, nor rounding errors.
-/

namespace SpectralDNS.Channel.OrrSommerfeld

open Polynomial Periodic

/-- `inner_product((SB, 0), (SB, d), measure=g)` (OrrSommerfeld_shen.py:62-69) as the quadrature of the `N` points. -/
noncomputable def entryM (q : Quad) (N : ℕ) (g : ℝ[X]) (test trial : ℕ → ℝ[X]) (d a b : ℕ) : Matrix (Fin a) (Fin b) ℝ :=
  fun i j => quadrature q N (g * derivative^[d] (trial j) * test i)

/-- `B` of `assemble` (OrrSommerfeld_shen.py:53-80) for `N = n + 4`. -/
noncomputable def osB (q : Quad) (n : ℕ) (a Re : ℝ) : (Fin n → ℂ) →ₗ[ℂ] (Fin n → ℂ) :=
  let K := matC (entry q (n + 4) psi psi 2 n n)
  let M := matC (entry q (n + 4) psi psi 0 n n)
  (-Re * a * Complex.I : ℂ) • (K - (a ^ 2 : ℂ) • M)

/-- `A` of `assemble` (OrrSommerfeld_shen.py:53-80). -/
noncomputable def osA (q : Quad) (n : ℕ) (a Re : ℝ) : (Fin n → ℂ) →ₗ[ℂ] (Fin n → ℂ) :=
  let K := matC (entry q (n + 4) psi psi 2 n n)
  let K1 := matC (entryM q (n + 4) (1 - X ^ 2) psi psi 0 n n)
  let K2 := matC (entryM q (n + 4) (1 - X ^ 2) psi psi 2 n n)
  let Q := matC (entry q (n + 4) psi psi 4 n n)
  let M := matC (entry q (n + 4) psi psi 0 n n)
  Q - (2 * a ^ 2 : ℂ) • K + (a ^ 4 : ℂ) • M - (2 * a * Re * Complex.I : ℂ) • M - (Complex.I * a * Re : ℂ) • (K2 - (a ^ 2 : ℂ) • K1)

/-- `get_eigval` (OrrSommerfeld_shen.py:93-117): `indices = argsort(imag(eigvals))` and `indices[-nx]` for `1 ≤ nx ≤ m`. -/
def getEigval {m : ℕ} (indices : Fin m → Fin m) (nx : ℕ) (h1 : 1 ≤ nx) (hm : nx ≤ m) : Fin m := indices ⟨m - nx, by omega⟩

/-- `phi` and `dphidy` of `interp` (OrrSommerfeld_shen.py:32-51): the function with the coefficients of the eigenvector, and its derivative. -/
noncomputable def interp {m : ℕ} (v : Fin m → ℂ) (x : ℝ) : ℂ × ℂ := ((expandC psi v).eval (x : ℂ), (derivative (expandC psi v)).eval (x : ℂ))

/-- `u` of `initOS` (OrrSommerfeld.py:25). -/
noncomputable def pointU (eps : ℝ) (phi c : ℂ) (t y : ℝ) : ℝ := -eps * (Complex.I * phi * Complex.exp (Complex.I * (y - c * t))).re

/-- `v` of `initOS` (OrrSommerfeld.py:24). -/
noncomputable def pointV (eps x : ℝ) (dphidy c : ℂ) (t y : ℝ) : ℝ := (1 - x ^ 2) + eps * (dphidy * Complex.exp (Complex.I * (y - c * t))).re

variable {N : Fin 2 → ℕ}

/-- `U[0]` after `initOS` (OrrSommerfeld.py:18-28): the values at the points `x` and `y = L[1] j/N[1]`, repeated along `z`. -/
noncomputable def initOS0 (q : Quad) (n : ℕ) (L : Fin 2 → ℝ) (eps : ℝ) {m : ℕ} (v : Fin m → ℂ) (c : ℂ) (t : ℝ) (j : Fin (n + 4))
    (p : Periodic.Grid N) : ℝ :=
  pointU eps (interp v (quadPoint q (n + 4) j)).1 c t (L 0 * ((p 0 : ℕ) : ℝ) / N 0)

/-- `U[1]` after `initOS` (OrrSommerfeld.py:18-28). -/
noncomputable def initOS1 (q : Quad) (n : ℕ) (L : Fin 2 → ℝ) (eps : ℝ) {m : ℕ} (v : Fin m → ℂ) (c : ℂ) (t : ℝ) (j : Fin (n + 4))
    (p : Periodic.Grid N) : ℝ :=
  pointV eps (quadPoint q (n + 4) j) (interp v (quadPoint q (n + 4) j)).2 c t (L 0 * ((p 0 : ℕ) : ℝ) / N 0)

/-- `set_velocity` (KMM.py:162-165): `VFS.forward`, whose first component is the biharmonic space. -/
noncomputable def setVelocity (q : Quad) (n : ℕ) (U0 U1 U2 : Fin (n + 4) → Periodic.Grid N → ℝ) :
    Vel (RModes N) (Fin n → ℂ) (Fin (n + 2) → ℂ) where
  u := fun k => forwardWall q (n + 4) psi fun j => (rspace N N).forward (U0 j) k
  v := fwdD (chebWall q n) (rspace N N) U1
  w := fwdD (chebWall q n) (rspace N N) U2

/-- `U_hat` of the flow of `initOS` at time `t` (OrrSommerfeld.py:44-46, 58-59; `U[2] = 0`). -/
noncomputable def velOS (q : Quad) (n : ℕ) (L : Fin 2 → ℝ) (eps : ℝ) {m : ℕ} (v : Fin m → ℂ) (c : ℂ) (t : ℝ) :
    Vel (RModes N) (Fin n → ℂ) (Fin (n + 2) → ℂ) :=
  setVelocity q n (initOS0 q n L eps v c t) (initOS1 q n L eps v c t) fun _ _ => 0

/-- `initialize` (OrrSommerfeld.py:32-81) with KMM: the convection at `t = 0` is computed with the `g` of the context (`s.g`, zero in a new
context), then the flow at `t = dt` is set and `g` made zero. -/
noncomputable def initState {n : ℕ} (k : Ctx (RModes N) (Fin n → ℂ) (Fin (n + 2) → ℂ)) (q : Quad) (L : Fin 2 → ℝ) (eps : ℝ) {m : ℕ}
    (v : Fin m → ℂ) (c : ℂ) (s : St (RModes N) (Fin n → ℂ) (Fin (n + 2) → ℂ)) : St (RModes N) (Fin n → ℂ) (Fin (n + 2) → ℂ) :=
  let U0 := velOS q n L eps v c 0
  { s with U := velOS q n L eps v c k.dt, U0 := U0, H := k.conv U0 s.g, H1 := k.conv U0 s.g, g := fun _ => 0 }

/-- `initialize` (OrrSommerfeld.py:32-81) with KMMRK3. -/
noncomputable def initState3 {n : ℕ} (q : Quad) (L : Fin 2 → ℝ) (eps : ℝ) {m : ℕ}
    (v : Fin m → ℂ) (c : ℂ) (s : St3 (RModes N) (Fin n → ℂ) (Fin (n + 2) → ℂ)) : St3 (RModes N) (Fin n → ℂ) (Fin (n + 2) → ℂ) :=
  { s with U := velOS q n L eps v c 0, g := fun _ => 0 }

/-- `0.5*dx(U[0]**2+(U[1]-(1-X[0]**2))**2, FST)` (OrrSommerfeld.py:50, 62, 147-148). -/
noncomputable def pertEnergy (q : Quad) (n : ℕ) (L : Fin 2 → ℝ) {R : Type*} [Fintype R] (blocks : R → Utilities.Block (n + 4) (Periodic.Grid N))
    (U0 U1 : Fin (n + 4) → Periodic.Grid N → ℝ) : ℝ :=
  0.5 * dxChannel q n L blocks fun j p => U0 j p ^ 2 + (U1 j p - (1 - quadPoint q (n + 4) j ^ 2)) ^ 2

/-- `e2` of `compute_error` (OrrSommerfeld.py:151-156) for the velocity arrays `U[0]`, `U[1]` at time `t`. -/
noncomputable def errorEnergy (q : Quad) (n : ℕ) (L : Fin 2 → ℝ) {R : Type*} [Fintype R] (blocks : R → Utilities.Block (n + 4) (Periodic.Grid N))
    (eps : ℝ) {m : ℕ} (v : Fin m → ℂ) (c : ℂ) (t : ℝ) (U0 U1 : Fin (n + 4) → Periodic.Grid N → ℝ) : ℝ :=
  0.5 * dxChannel q n L blocks fun j p => (U0 j p - initOS0 q n L eps v c t j p) ^ 2 + (U1 j p - initOS1 q n L eps v c t j p) ^ 2

/-- The condition that `regression_test` asserts (OrrSommerfeld.py:160-163) with the tolerance `tol`, 1e-12 in the code. -/
def regressionTest (e2 tol : ℝ) : Prop := Real.sqrt e2 < tol

/-- `exact` of `compute_error` (OrrSommerfeld.py:150). -/
noncomputable def exact (c : ℂ) (t : ℝ) : ℝ := Real.exp (2 * c.im * t)

end SpectralDNS.Channel.OrrSommerfeld

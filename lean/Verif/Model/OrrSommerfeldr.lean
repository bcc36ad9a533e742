import Verif.Model.OrrSommerfeld
import Verif.Model.KMMr
import Verif.Model.Laminar

/-!
# demo/OrrSommerfeldr.py (the same file is in tests/): the Orr-Sommerfeld demo for KMMr

Arrays of the channel are written with the index of the wall-normal axis 2 first.  The class of demo/OrrSommerfeld_shen.py is that of
`Model/OrrSommerfeld.lean`.  Plotting and output are not modelled, nor rounding errors.
-/

namespace SpectralDNS.KMMr.OrrSommerfeld

open SpectralDNS.Channel (Quad quadPoint psi phi forwardWall chebWall fwdD dxChannel scalarProduct)
open SpectralDNS.Channel.OrrSommerfeld (interp)
open SpectralDNS.Periodic (RModes rspace)

/-- `u` of `initOS` (OrrSommerfeldr.py:27). -/
noncomputable def pointU (eps : ℝ) (phi c : ℂ) (t y : ℝ) : ℝ := -eps * (Complex.I * phi * Complex.exp (Complex.I * (y - c * t))).re

/-- `v` of `initOS` (OrrSommerfeldr.py:26). -/
noncomputable def pointV (eps x : ℝ) (dphidy c : ℂ) (t y : ℝ) : ℝ := (1 - x ^ 2) + eps * (dphidy * Complex.exp (Complex.I * (y - c * t))).re

variable {N : Fin 2 → ℕ}

/-- `U[2]` after `initOS` (OrrSommerfeldr.py:20-30): `x = X[2]` and `y = X[0]`, repeated along axis 1. -/
noncomputable def initOS2 (q : Quad) (n : ℕ) (L : Fin 2 → ℝ) (eps : ℝ) {m : ℕ} (v : Fin m → ℂ) (c : ℂ) (t : ℝ) (l : Fin (n + 4))
    (p : Periodic.Grid N) : ℝ :=
  pointU eps (interp v (quadPoint q (n + 4) l)).1 c t (L 0 * ((p 0 : ℕ) : ℝ) / N 0)

/-- `U[0]` after `initOS` (OrrSommerfeldr.py:20-30). -/
noncomputable def initOS0 (q : Quad) (n : ℕ) (L : Fin 2 → ℝ) (eps : ℝ) {m : ℕ} (v : Fin m → ℂ) (c : ℂ) (t : ℝ) (l : Fin (n + 4))
    (p : Periodic.Grid N) : ℝ :=
  pointV eps (quadPoint q (n + 4) l) (interp v (quadPoint q (n + 4) l)).2 c t (L 0 * ((p 0 : ℕ) : ℝ) / N 0)

/-- `set_velocity` (KMMr.py:163-166): `VFS.forward`, whose last component is the biharmonic space (KMMr.py:39). -/
noncomputable def setVelocity (q : Quad) (n : ℕ) (U0 U1 U2 : Fin (n + 4) → Periodic.Grid N → ℝ) :
    Vel (RModes N) (Fin n → ℂ) (Fin (n + 2) → ℂ) where
  u0 := fwdD (chebWall q n) (rspace N N) U0
  u1 := fwdD (chebWall q n) (rspace N N) U1
  u2 := fun k => forwardWall q (n + 4) psi fun j => (rspace N N).forward (U2 j) k

/-- `U_hat` of the flow of `initOS` at time `t` (OrrSommerfeldr.py:44-46, 58-59; `U[1] = 0`). -/
noncomputable def velOS (q : Quad) (n : ℕ) (L : Fin 2 → ℝ) (eps : ℝ) {m : ℕ} (v : Fin m → ℂ) (c : ℂ) (t : ℝ) :
    Vel (RModes N) (Fin n → ℂ) (Fin (n + 2) → ℂ) :=
  setVelocity q n (initOS0 q n L eps v c t) (fun _ _ => 0) (initOS2 q n L eps v c t)

/-- `initialize` (OrrSommerfeldr.py:34-77) with KMMr: the convection at `t = 0` is computed with the `g` of the context, then the flow at `t = dt` is
set, copied to `U_hat0`, and `g` made zero. -/
noncomputable def initState {n : ℕ} (k : Ctx (RModes N) (Fin n → ℂ) (Fin (n + 2) → ℂ)) (q : Quad) (L : Fin 2 → ℝ) (eps : ℝ) {m : ℕ}
    (v : Fin m → ℂ) (c : ℂ) (s : St (RModes N) (Fin n → ℂ) (Fin (n + 2) → ℂ)) : St (RModes N) (Fin n → ℂ) (Fin (n + 2) → ℂ) :=
  let Ut := velOS q n L eps v c 0
  { s with U := velOS q n L eps v c k.dt, U0 := velOS q n L eps v c k.dt, H := k.conv Ut s.g, H1 := k.conv Ut s.g, g := fun _ => 0 }

/-- `Sk[0, 0, 0]` after `set_Source` (OrrSommerfeldr.py:79-89): the scalar product with the Dirichlet basis of the constant, whose last two entries
are zero. -/
noncomputable def setSource (q : Quad) (n : ℕ) (Re : ℝ) : Fin (n + 2) → ℂ := scalarProduct q (n + 4) phi (Polynomial.C ((-2 / Re : ℝ) : ℂ))

/-- `0.5*dx(U[2]**2+(U[0]-(1-X[2]**2))**2, FST, axis=2)` (OrrSommerfeldr.py:50, 63, 146-148). -/
noncomputable def pertEnergy (q : Quad) (n : ℕ) (L : Fin 2 → ℝ) {R : Type*} [Fintype R] (blocks : R → Utilities.Block (n + 4) (Periodic.Grid N))
    (U0 U2 : Fin (n + 4) → Periodic.Grid N → ℝ) : ℝ :=
  0.5 * dxChannel q n L blocks fun l p => U2 l p ^ 2 + (U0 l p - (1 - quadPoint q (n + 4) l ^ 2)) ^ 2

/-- `e2` of `compute_error` (OrrSommerfeldr.py:151-155). -/
noncomputable def errorEnergy (q : Quad) (n : ℕ) (L : Fin 2 → ℝ) {R : Type*} [Fintype R] (blocks : R → Utilities.Block (n + 4) (Periodic.Grid N))
    (eps : ℝ) {m : ℕ} (v : Fin m → ℂ) (c : ℂ) (t : ℝ) (U0 U2 : Fin (n + 4) → Periodic.Grid N → ℝ) : ℝ :=
  0.5 * dxChannel q n L blocks fun l p => (U0 l p - initOS0 q n L eps v c t l p) ^ 2 + (U2 l p - initOS2 q n L eps v c t l p) ^ 2

/-- `exact` of `compute_error` (OrrSommerfeldr.py:150). -/
noncomputable def exact (c : ℂ) (t : ℝ) : ℝ := Real.exp (2 * c.im * t)

end SpectralDNS.KMMr.OrrSommerfeld

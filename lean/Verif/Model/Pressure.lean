import Verif.Model.ChebWall

/-!
# `get_pressure` of KMM (KMM.py:178-218)
-/

namespace SpectralDNS.Channel

open Polynomial

/-- The Chebyshev basis `CT` (KMM.py:28). -/
noncomputable def chebT (j : ℕ) : ℝ[X] := Chebyshev.T ℝ (j : ℤ)

/-- The array `U_hat[0]` (biharmonic space, `n` coefficients of `n + 4` entries) copied to a function of `FST` (KMM.py:184-185, 196). -/
def asDirichlet {n : ℕ} (u : Fin n → ℂ) (i : Fin (n + 2)) : ℂ := if h : (i : ℕ) < n then u ⟨i, h⟩ else 0

/-- `rhs_hat` (KMM.py:182-197) at one wavenumber pair with `K2 = k2`: `u`, `u0` the arrays `U_hat[0]`, `U_hat0[0]`, `Hx` the first component of
the convection.  The factor of the Fourier directions, common to all inner products, is left out. -/
noncomputable def pressureRHS (q : Quad) (n : ℕ) (nu dt k2 : ℝ) (u u0 : Fin n → ℂ) (Hx : Fin (n + 2) → ℂ) : Fin (n + 4) → ℂ :=
  let Um : Fin (n + 2) → ℂ := (0.5 : ℂ) • (asDirichlet u + asDirichlet u0)
  let hx : Fin (n + 2) → ℂ := Hx - (1 / dt : ℂ) • (asDirichlet u - asDirichlet u0)
  scalarProduct q (n + 4) chebT ((nu : ℂ) • (derivative^[2] (expandC phi Um) - (k2 : ℂ) • expandC phi Um))
    + scalarProduct q (n + 4) chebT (expandC phi hx)

/-- `A` (KMM.py:199-205): the inner products of derivative and test function with the entry `[N-1, 0]` set to one. -/
noncomputable def pressureMatrix (q : Quad) (n : ℕ) : Matrix (Fin (n + 4)) (Fin (n + 4)) ℝ := fun i j =>
  if (i : ℕ) = n + 3 ∧ (j : ℕ) = 0 then 1 else entry q (n + 4) chebT chebT 1 (n + 4) (n + 4) i j

/-- `p_hat` (KMM.py:207-208): the solution of the system (`CT.solve`, as a direct solver). -/
noncomputable def pressureHat (q : Quad) (n : ℕ) (nu dt k2 : ℝ) (u u0 : Fin n → ℂ) (Hx : Fin (n + 2) → ℂ) : Fin (n + 4) → ℂ :=
  matC (pressureMatrix q n)⁻¹ (pressureRHS q n nu dt k2 u u0 Hx)

end SpectralDNS.Channel

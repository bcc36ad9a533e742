import Verif.Model.Dealias

/-!
# The 2/3-rule of the package (`dealias='2/3-rule'`, the default, config.py:191-193)

solvers/NS.py:29-31 (also used by NS2D.py, VV.py, MHD.py) and Bq2D.py:30-32 call `T.get_dealiased(padding_factor=1, dealias_direct=True)`.  shenfun is
not part of the repository; its documentation says of `dealias_direct`: "Set upper 1/3 of wavenumbers to zero before backward transform".  The largest
wavenumber that stays along axis `i` is a parameter `c i` here, and so is whether the forward transform zeroes the same modes.
-/

namespace SpectralDNS.Periodic

open Complex

variable {n : ℕ}

/-- The modes up to the cut-off `c` along every axis; the others are set to zero. -/
def lowPass (N : Fin (n + 1) → ℕ) (c : Fin (n + 1) → ℕ) (a : RModes N → ℂ) (k : RModes N) : ℂ := if ∀ i, |waves N i k| ≤ (c i : ℤ) then a k else 0

/-- `Tp` of solvers/NS.py:29-31 and Bq2D.py:30-32 with `dealias='2/3-rule'`: the transforms of the mesh `N` itself, the backward one of the low modes;
`both` says whether the forward transform leaves out the high modes too. -/
noncomputable def directSpace (N : Fin (n + 1) → ℕ) (c : Fin (n + 1) → ℕ) (both : Bool) : Space (RModes N) (Grid N) where
  forward f := if both then lowPass N c ((rspace N N).forward f) else (rspace N N).forward f
  backward a := (rspace N N).backward (lowPass N c a)

/-- The context of a periodic solver with `dealias='2/3-rule'` (solvers/NS.py:12-72, Bq2D.py:12-75); `masked` is `params.mask_nyquist`
(solvers/NS.py:34). -/
noncomputable def directCtx (N : Fin (n + 1) → ℕ) (c : Fin (n + 1) → ℕ) (both masked : Bool) (L : Fin (n + 1) → ℝ) (nu : ℝ) (Source : SArr (n + 1) (RModes N)) :
    Ctx (n + 1) (RModes N) (Grid N) :=
  ⟨directSpace N c both, scaledWaves N L, nu, if masked then some (nyquistMask N) else none, Source⟩

end SpectralDNS.Periodic

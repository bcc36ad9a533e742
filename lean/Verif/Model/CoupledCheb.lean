import Verif.Model.Coupled
import Verif.Model.ChebWall
import Verif.Model.Pressure

/-!
# The Chebyshev-Galerkin matrices of the coupled channel solvers: Coupled.py:22-29, 53-54, 95-106

`N[0] = n + 4`.  As in `Model/Galerkin.lean` shenfun's `inner` is the quadrature of the product of trial and test functions.
-/

namespace SpectralDNS.Coupled

open Polynomial Channel

/-- The blocks of `a0+a1+a2` (Coupled.py:101-106, CoupledRK3.py:104-109): velocities in `ST` (Coupled.py:23), pressure and its test
functions in `CP`, all `N[0]` Chebyshev polynomials (Coupled.py:25, 28). -/
noncomputable def chebMats (q : Quad) (n : ℕ) : Mats (Fin (n + 2) → ℂ) (Fin (n + 4) → ℂ) (Fin (n + 4) → ℂ) where
  ADD := matC (entry q (n + 4) phi phi 2 (n + 2) (n + 2))
  BDD := matC (entry q (n + 4) phi phi 0 (n + 2) (n + 2))
  CDP := matC (entry q (n + 4) phi chebT 1 (n + 2) (n + 4))
  BDP := matC (entry q (n + 4) phi chebT 0 (n + 2) (n + 4))
  CPD := matC (entry q (n + 4) chebT phi 1 (n + 4) (n + 2))
  BPD := matC (entry q (n + 4) chebT phi 0 (n + 4) (n + 2))

/-- The rows of the continuity equation which `constraints` (Coupled.py:53-54, CoupledRK3.py:29-30) leaves at the mean mode: all but the
first and the last. -/
def rest (n : ℕ) : (Fin (n + 4) → ℂ) →ₗ[ℂ] (Fin (n + 2) → ℂ) := LinearMap.pi fun i => LinearMap.proj i.succ.castSucc

/-- The constraint `(3, 0, 0)` (Coupled.py:53). -/
def pinFirst (n : ℕ) : (Fin (n + 4) → ℂ) →ₗ[ℂ] ℂ := LinearMap.proj 0

/-- The constraint `(3, params.N[0]-1, 0)` (Coupled.py:54). -/
def pinLast (n : ℕ) : (Fin (n + 4) → ℂ) →ₗ[ℂ] ℂ := LinearMap.proj (Fin.last _)

/-- The wall-normal direction of the coupled solvers (Coupled.py:23-25, 47-49): as `chebWall`, with the Dirichlet basis for all
components of the velocity. -/
noncomputable def chebWall (q : Quad) (n : ℕ) : Wall (Fin (n + 2) → ℂ) (Fin (n + 2) → ℂ) (Fin (n + 4) → ℂ) (Fin (n + 4)) where
  fB := expandC phi
  fD := expandC phi
  fC := expandC fun j => Chebyshev.T ℝ (j : ℤ)
  x j := quadPoint q (n + 4) j
  fwd := forwardWall q (n + 4) phi
  projB := projectOnto q (n + 4) phi
  projD := projectOnto q (n + 4) phi
  projC := projectOnto q (n + 4) fun j => Chebyshev.T ℝ (j : ℤ)
  ctd := multCTD n
  toB := LinearMap.id
  toD := LinearMap.id

/-- `U_hat` as the velocity of `Model/ChannelConv.lean`. -/
def asVel {κ D : Type*} (U : Vel κ D) : Channel.Vel κ D D := ⟨U.c0, U.c1, U.c2⟩

/-- One pass of the time loop (__init__.py:94-112) with CoupledRK3, whose `end_of_tstep` (CoupledRK3.py:138-144) does nothing. -/
noncomputable def tick3 {κ D P R : Type*} [AddCommGroup D] [Module ℂ D] [AddCommGroup P] [Module ℂ P] [AddCommGroup R] [Module ℂ R]
    (c : Ctx κ D P R) (solve : Fin 3 → Vec κ D → Vel κ D × (κ → P)) (upd : Vel κ D → Vel κ D) (s : St3 κ D P) : St3 κ D P :=
  let s := integrate3 c solve s
  { s with U := upd s.U }

end SpectralDNS.Coupled

import Verif.Model.RayleighBenard
import Verif.Model.ChebWall

/-!
# The Rayleigh-Benard solvers with the Chebyshev bases: KMM_RB.py:18, 33-46, 100-117, KMMRK3_RB.py:18, 32-42, 101-119
-/

namespace SpectralDNS.Channel

open Polynomial Periodic

/-- The function of the space `RB` (KMM_RB.py:18) with Dirichlet part `d` and boundary coefficients `p`, `q`, see
`Model/RayleighBenard.lean`. -/
noncomputable def tempPoly {n : ℕ} (d : Fin (n + 2) → ℂ) (p q : ℂ) : ℂ[X] :=
  expandC phi d + (Polynomial.C (1 / 2 * (p + q)) + Polynomial.C (1 / 2 * (p - q)) * X)

/-- `get_context` of KMM_RB and KMMRK3_RB (KMM_RB.py:15-46, KMMRK3_RB.py:15-42) for `N[0] = n + 4`, the KMM context `c` given.
`RB` has shenfun's default quadrature; `qT` is the quadrature inside `TC`: `"GL"` in KMM_RB (KMM_RB.py:46), that of `ST` in KMMRK3_RB.
`zero` is the mean wavenumber, which alone carries boundary values.  `bc` are the temperatures of the walls `x = 1` and `x = -1`; in the
code `bc=(1, 0)`, and which of the two numbers belongs to which wall is up to shenfun (`Model/RBDemo.lean`).  The diagonal entries of `BTT` are the quadratures of
`T_0*T_0` and `T_1*T_1` with the quadrature `q` of `CT` (KMM.py:28).  With `n < 2` the biharmonic space has no second function and
`w0[1]` is not read. -/
noncomputable def chebRB {κ : Type*} [DecidableEq κ] (bc : ℝ × ℝ) (q qT : Quad) (n : ℕ) (c : Ctx κ (Fin n → ℂ) (Fin (n + 2) → ℂ)) (kappa : ℝ)
    (prodB : Temp κ (Fin (n + 2) → ℂ) → (κ → Fin n → ℂ) → κ → Fin n → ℂ)
    (prodD : Temp κ (Fin (n + 2) → ℂ) → (κ → Fin (n + 2) → ℂ) → κ → Fin (n + 2) → ℂ) : RBCtx κ (Fin n → ℂ) (Fin (n + 2) → ℂ) where
  c := c
  kappa := kappa
  e0 i := if (i : ℕ) = 0 then 1 else 0
  e1 i := if (i : ℕ) = 1 then 1 else 0
  btt0 := quadrature q (n + 4) (Chebyshev.T ℝ 0 * Chebyshev.T ℝ 0)
  btt1 := quadrature q (n + 4) (Chebyshev.T ℝ 1 * Chebyshev.T ℝ 1)
  prodB := prodB
  prodD := prodD
  bcp k := if k = c.G.zero then (bc.1 : ℂ) else 0
  bcq k := if k = c.G.zero then (bc.2 : ℂ) else 0
  ADDR := (chebMats .GC n).ADD
  BDDR := (chebMats .GC n).BDD
  ADDT := (chebMats qT n).ADD
  BDDT := (chebMats qT n).BDD

/-- `FRBp.backward(phi_hat)` (KMM_RB.py:108): values at the points of the quadrature of `RB`, which is shenfun's default whatever
`params.Dquad` is. -/
noncomputable def bwdT {κ P : Type*} {n : ℕ} (T : Space κ P) (phi : Temp κ (Fin (n + 2) → ℂ)) : Fin (n + 4) → P → ℝ :=
  synth T (chebWall .GC n).x fun k => tempPoly (phi.d k) (phi.p k) (phi.q k)

/-- `FSBp.forward(phi0*UCN[0])` (KMM_RB.py:109) with `phi0` from KMM_RB.py:108; here and in `prodDwall` the padding of the 3/2-rule extends to the plane only. -/
noncomputable def prodBwall {κ P : Type*} (q : Quad) (n : ℕ) (T : Space κ P) (phi : Temp κ (Fin (n + 2) → ℂ)) (u : κ → Fin n → ℂ) :
    κ → Fin n → ℂ := fun k =>
  forwardWall q (n + 4) psi fun j => T.forward ((bwdT T phi * bwdB (chebWall q n) T u) j) k

/-- `FSTp.forward(phi0*UCN[1])`, `FSTp.forward(phi0*UCN[2])` (KMM_RB.py:111, 113). -/
noncomputable def prodDwall {κ P : Type*} (q : Quad) (n : ℕ) (T : Space κ P) (phi : Temp κ (Fin (n + 2) → ℂ)) (v : κ → Fin (n + 2) → ℂ) :
    κ → Fin (n + 2) → ℂ := fwdD (chebWall q n) T (bwdT T phi * bwdD (chebWall q n) T v)

/-- `dTdx_hat` (KMMRK3_RB.py:111-113): `CTD.matvec`, the contribution of the boundary values, `BTT.solve`; `CTD` and `BTT` from
KMMRK3_RB.py:35-36. -/
noncomputable def dTdxHat (q : Quad) (n : ℕ) (d : Fin (n + 2) → ℂ) (p r : ℂ) : Fin (n + 4) → ℂ :=
  let T := fun j : ℕ => Chebyshev.T ℝ (j : ℤ)
  let BTT := entry q (n + 4) T T 0 (n + 4) (n + 4)
  matC BTT⁻¹ (matC (entry q (n + 4) T phi 1 (n + 4) (n + 2)) d
    + fun i : Fin (n + 4) => if (i : ℕ) = 0 then 0.5 * (quadrature q (n + 4) (T 0 * T 0) : ℂ) * (p - r) else 0)

/-- `StandardRBConvection` (KMMRK3_RB.py:101-119): `W` the wall-normal direction of the padded spaces, `BDD` the mass matrix of `ST`. -/
noncomputable def standardRB {κ P Q : Type*} (q : Quad) (n : ℕ) (W : Wall (Fin n → ℂ) (Fin (n + 2) → ℂ) (Fin (n + 4) → ℂ) Q) (T : Space κ P)
    (G : Grid κ) (U : Vel κ (Fin n → ℂ) (Fin (n + 2) → ℂ)) (phi : Temp κ (Fin (n + 2) → ℂ)) : κ → Fin (n + 2) → ℂ :=
  let u := velocity W T U
  let dTdx := bwdC W T fun k => dTdxHat q n (phi.d k) (phi.p k) (phi.q k)
  let dTdy := bwdD W T (ik G.K1 phi.d)
  let dTdz := bwdD W T (ik G.K2 phi.d)
  fun k => (chebMats q n).BDD (fwdD W T (u 0 * dTdx + u 1 * dTdy + u 2 * dTdz) k)

end SpectralDNS.Channel

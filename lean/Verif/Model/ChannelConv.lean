import Verif.Model.Channel
import Verif.Model.Fourier
import Mathlib.Algebra.Polynomial.Derivative
import Mathlib.Algebra.Polynomial.AlgebraMap

/-!
# The convection of the channel solvers: solvers/KMM.py:233-396, Coupled.py:165-280

KMMRK3.py, KMM_RB.py and KMMRK3_RB.py import it from KMM.py; CoupledRK3.py:171-286 is the same code as Coupled.py.  KMMr.py is not
covered.

A coefficient array of a tensor product space holds, for each wavenumber pair, the coefficients of a polynomial in one of the bases of
the wall-normal direction.  Transforms are the plane transform `T` at every wall-normal point together with the evaluation of that
polynomial, or the forward transform of the Dirichlet basis (any linear map).  Padding (3/2-rule) is a plane transform with more
points than modes; for `dealias_direct` (2/3-rule) see `Model/DealiasWall.lean`.
-/

namespace SpectralDNS.Channel

open Polynomial Periodic

variable {κ B D C Q P : Type*} [AddCommGroup B] [Module ℂ B] [AddCommGroup D] [Module ℂ D] [AddCommGroup C] [Module ℂ C]

/-- The wall-normal direction (KMM.py:26-28): the polynomials represented by coefficients in the bases `SB`, `ST`, `CT`, the quadrature
points, the forward transform of `ST`, shenfun's `project` onto the three spaces, and `Mult_CTD` of LUsolve.pyx.  `toB` and `toD` write
an array of coefficients of one basis into an array of the other one, entry by entry (the arrays have equal length `N[0]`; a biharmonic
function has two coefficients less). -/
structure Wall (B D C Q : Type*) [AddCommGroup B] [Module ℂ B] [AddCommGroup D] [Module ℂ D] [AddCommGroup C] [Module ℂ C] where
  fB : B →ₗ[ℂ] ℂ[X]
  fD : D →ₗ[ℂ] ℂ[X]
  fC : C →ₗ[ℂ] ℂ[X]
  x : Q → ℝ
  fwd : (Q → ℂ) →ₗ[ℂ] D
  projB : ℂ[X] →ₗ[ℂ] B
  projD : ℂ[X] →ₗ[ℂ] D
  projC : ℂ[X] →ₗ[ℂ] C
  ctd : D →ₗ[ℂ] C
  toB : D →ₗ[ℂ] B
  toD : B →ₗ[ℂ] D

/-- Values at the grid points of the functions with coefficient polynomials `a k`. -/
noncomputable def synth (T : Space κ P) (x : Q → ℝ) (a : κ → ℂ[X]) : Q → P → ℝ := fun q => T.backward fun k => (a k).eval (x q : ℂ)

/-- `FSBp.backward`, `FSTp.backward`, `FCTp.backward` (KMM.py:51-53). -/
noncomputable def bwdB (W : Wall B D C Q) (T : Space κ P) (a : κ → B) : Q → P → ℝ := synth T W.x fun k => W.fB (a k)
@[inherit_doc bwdB] noncomputable def bwdD (W : Wall B D C Q) (T : Space κ P) (a : κ → D) : Q → P → ℝ := synth T W.x fun k => W.fD (a k)
@[inherit_doc bwdB] noncomputable def bwdC (W : Wall B D C Q) (T : Space κ P) (a : κ → C) : Q → P → ℝ := synth T W.x fun k => W.fC (a k)

/-- `FSTp.forward` (KMM.py:51). -/
noncomputable def fwdD (W : Wall B D C Q) (T : Space κ P) (f : Q → P → ℝ) : κ → D := fun k => W.fwd fun q => T.forward (f q) k

/-- `VFSp.backward(u_hat, u_dealias)` (KMM.py:54). -/
noncomputable def velocity (W : Wall B D C Q) (T : Space κ P) (U : Vel κ B D) : Fin 3 → Q → P → ℝ :=
  ![bwdB W T U.u, bwdD W T U.v, bwdD W T U.w]

/-- `1j*K*a`. -/
noncomputable def ik {V : Type*} [AddCommGroup V] [Module ℂ V] (K : κ → ℝ) (a : κ → V) : κ → V := fun k => (Complex.I * K k) • a k

/-- `compute_curl` (KMM.py:248-264) with `mult_K1j` (KMM.py:243-246). -/
noncomputable def computeCurl (W : Wall B D C Q) (T : Space κ P) (G : Grid κ) (U : Vel κ B D) (g : κ → D) : Fin 3 → Q → P → ℝ :=
  let dvdx := bwdC W T fun k => W.ctd (U.v k)
  let dwdx := bwdC W T fun k => W.ctd (U.w k)
  ![bwdD W T g, bwdB W T (ik G.K2 U.u) - dwdx, bwdB W T (fun k => -(Complex.I * G.K1 k) • U.u k) + dvdx]

/-- `Cross` (KMM.py:233-240). -/
noncomputable def crossHat (W : Wall B D C Q) (T : Space κ P) (a b : Fin 3 → Q → P → ℝ) : Vec κ D :=
  let Uc := cross1_3d 0 a b
  ⟨fwdD W T (Uc 0), fwdD W T (Uc 1), fwdD W T (Uc 2)⟩

/-- `standardConvection` (KMM.py:285-322, Coupled.py:179-207). -/
noncomputable def standardConvection (W : Wall B D C Q) (T : Space κ P) (G : Grid κ) (U : Vel κ B D) : Vec κ D :=
  let u := velocity W T U
  let dudx := bwdD W T fun k => W.projD (derivative (W.fB (U.u k)))
  let dvdx := bwdC W T fun k => W.projC (derivative (W.fD (U.v k)))
  let dwdx := bwdC W T fun k => W.projC (derivative (W.fD (U.w k)))
  let dudy := bwdB W T (ik G.K1 U.u)
  let dudz := bwdB W T (ik G.K2 U.u)
  let dvdy := bwdD W T (ik G.K1 U.v)
  let dvdz := bwdD W T (ik G.K2 U.v)
  let dwdy := bwdD W T (ik G.K1 U.w)
  let dwdz := bwdD W T (ik G.K2 U.w)
  ⟨fwdD W T (u 0 * dudx + u 1 * dudy + u 2 * dudz), fwdD W T (u 0 * dvdx + u 1 * dvdy + u 2 * dvdz),
   fwdD W T (u 0 * dwdx + u 1 * dwdy + u 2 * dwdz)⟩

/-- `divergenceConvection` (KMM.py:324-353) added to `rhs`.  The temporaries `F_tmp`, `F_tmp2` belong to `VFSp`, whose first component has the biharmonic
basis, while their entries come from `FSTp.forward`.  In Coupled.py:209-238 all components of `VFSp` have the Dirichlet basis: there
`B` is `D` and `toB`, `toD` do nothing. -/
noncomputable def divergenceConvection (W : Wall B D C Q) (T : Space κ P) (G : Grid κ) (U : Vel κ B D) (rhs : Vec κ D) : Vec κ D :=
  let u := velocity W T U
  let F0 := fwdD W T (u 0 * u 0)
  let F1 := fwdD W T (u 0 * u 1)
  let F2 := fwdD W T (u 0 * u 2)
  let rhs : Vec κ D := ⟨fun k => rhs.c0 k + W.toD (W.projB (derivative (W.fB (W.toB (F0 k))))),
    fun k => rhs.c1 k + W.projD (derivative (W.fD (F1 k))), fun k => rhs.c2 k + W.projD (derivative (W.fD (F2 k)))⟩
  let A0 := fwdD W T (u 0 * u 1)
  let A1 := fwdD W T (u 0 * u 2)
  let E0 := fwdD W T (u 1 * u 1)
  let E1 := fwdD W T (u 1 * u 2)
  let E2 := fwdD W T (u 2 * u 2)
  ⟨fun k => rhs.c0 k + ik G.K1 A0 k + ik G.K2 A1 k, fun k => rhs.c1 k + ik G.K1 E0 k + ik G.K2 E1 k,
   fun k => rhs.c2 k + ik G.K1 E1 k + ik G.K2 E2 k⟩

/-- `rhs *= x`. -/
def scaleVec (x : ℂ) (H : Vec κ D) : Vec κ D := ⟨fun k => x • H.c0 k, fun k => x • H.c1 k, fun k => x • H.c2 k⟩

/-- The keys of `getConvection` (KMM.py:355-396). -/
inductive ConvKind
  | standard
  | divergence
  | skew
  | vortex

/-- `getConvection(params.convection)` (KMM.py:355-396). -/
noncomputable def convection (kind : ConvKind) (W : Wall B D C Q) (T : Space κ P) (G : Grid κ) (U : Vel κ B D) (g : κ → D) : Vec κ D :=
  match kind with
  | .standard => scaleVec (-1) (standardConvection W T G U)
  | .divergence => scaleVec (-1) (divergenceConvection W T G U ⟨0, 0, 0⟩)
  | .skew => scaleVec (-0.5) (divergenceConvection W T G U (standardConvection W T G U))
  | .vortex => crossHat W T (velocity W T U) (computeCurl W T G U g)

/-- `compute_curl` (Coupled.py:173-177): `project(curl(u_hat), VCp)`, `VCp = VectorSpace([FSTp, FCTp, FCTp])` (Coupled.py:49); here all
components have the Dirichlet basis. -/
noncomputable def computeCurlCoupled (W : Wall D D C Q) (T : Space κ P) (G : Grid κ) (U : Vel κ D D) : Fin 3 → Q → P → ℝ :=
  ![bwdD W T fun k => W.projD ((Complex.I * G.K1 k) • W.fD (U.w k) - (Complex.I * G.K2 k) • W.fD (U.v k)),
    bwdC W T fun k => W.projC ((Complex.I * G.K2 k) • W.fD (U.u k) - derivative (W.fD (U.w k))),
    bwdC W T fun k => W.projC (derivative (W.fD (U.v k)) - (Complex.I * G.K1 k) • W.fD (U.u k))]

/-- `getConvection(params.convection)` (Coupled.py:240-280). -/
noncomputable def convectionCoupled (kind : ConvKind) (W : Wall D D C Q) (T : Space κ P) (G : Grid κ) (U : Vel κ D D) : Vec κ D :=
  match kind with
  | .standard => scaleVec (-1) (standardConvection W T G U)
  | .divergence => scaleVec (-1) (divergenceConvection W T G U ⟨0, 0, 0⟩)
  | .skew => scaleVec (-0.5) (divergenceConvection W T G U (standardConvection W T G U))
  | .vortex => crossHat W T (velocity W T U) (computeCurlCoupled W T G U)

end SpectralDNS.Channel

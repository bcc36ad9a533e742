import Verif.Model.Integrators
import Mathlib.Data.Complex.Basic
import Mathlib.Data.Complex.BigOperators
import Mathlib.LinearAlgebra.Complex.Module
import Mathlib.Algebra.BigOperators.Fin
import Mathlib.Algebra.Module.Pi
import Mathlib.Data.Fin.VecNotation

/-!
# Model of the periodic solvers: solvers/NS.py, NS2D.py, VV.py, MHD.py, Bq2D.py, maths/cross.py, maths/maths.py

Arrays with a leading component axis are functions `Fin d → ι → ℂ` (`ι` is the set of wavenumber indices of the local
or of the global array, the pointwise formulas are the same) and `Fin d → X → ℝ` on the collocation points `X`.
The dtype casts (`astype(float)`) and floating point rounding are not modelled.  The forward and backward
transforms of shenfun are parameters: functions of their input which overwrite their output.  In-place updates return
the new array.  Work arrays come in with arbitrary previous contents.
-/

namespace SpectralDNS.Periodic

open Complex

/-- A spectral array with `d` components. -/
abbrev SArr (d : ℕ) (ι : Type*) := Fin d → ι → ℂ
/-- A physical array with `d` components. -/
abbrev PArr (d : ℕ) (X : Type*) := Fin d → X → ℝ

/-- A `TensorProductSpace`, reduced to its two transforms (solvers/NS.py:23-32: `T` and its dealiased version `Tp`).
`VectorSpace`/`CompositeSpace` transform every component by the same function. -/
structure Space (ι X : Type*) where
  forward : (X → ℝ) → ι → ℂ
  backward : (ι → ℂ) → X → ℝ

/-- `VT.backward(u_hat, u)` for a vector space, component by component. -/
def Space.vbackward {ι X : Type*} (T : Space ι X) {d : ℕ} (a : SArr d ι) : PArr d X := fun i => T.backward (a i)

/-- `VT.forward(u, u_hat)` for a vector space, component by component. -/
def Space.vforward {ι X : Type*} (T : Space ι X) {d : ℕ} (f : PArr d X) : SArr d ι := fun i => T.forward (f i)

variable {ι X : Type*} {d : ℕ}

/-! ## get_context -/

/-- solvers/NS.py:42-44: `K2 = zeros; for i in range(dim): K2 += K[i]*K[i]`. -/
def K2 (K : Fin d → ι → ℝ) : ι → ℝ := fun k => ∑ i, K i k * K i k

/-- solvers/NS.py:46-48: `K_over_K2[i] = K[i] / np.where(K2 == 0, 1, K2)`. -/
noncomputable def K_over_K2 (K : Fin d → ι → ℝ) : Fin d → ι → ℝ := fun i k => K i k / (if K2 K k = 0 then 1 else K2 K k)

/-! ## maths/cross.py -/

/-- maths/cross.py:13-25, the branch `len(c.shape) == 4` (three dimensions): `c = a x b` written into the array `c`. -/
def cross1_3d {S R : Type*} [HMul S R R] [Sub R] (c : Fin 3 → R) (a : Fin 3 → S) (b : Fin 3 → R) : Fin 3 → R :=
  let c := Function.update c 0 (a 1 * b 2 - a 2 * b 1)
  let c := Function.update c 1 (a 2 * b 0 - a 0 * b 2)
  Function.update c 2 (a 0 * b 1 - a 1 * b 0)

/-- maths/cross.py:22-23, the branch `len(c.shape) == 2` (two dimensions): the scalar `a0 b1 - a1 b0`. -/
def cross1_2d {S R : Type*} [HMul S R R] [Sub R] (_c : R) (a : Fin 2 → S) (b : Fin 2 → R) : R := a 0 * b 1 - a 1 * b 0

/-- maths/cross.py:27-32 in three dimensions: `c = 1j*(a x b)` with `a` real and `b` complex; the real array is promoted
to complex before `cross1` (as numpy does in each product). -/
noncomputable def cross2_3d (c : SArr 3 ι) (a : Fin 3 → ι → ℝ) (b : SArr 3 ι) : SArr 3 ι :=
  let c := cross1_3d c (fun i k => (a i k : ℂ)) b
  fun i k => c i k * I

/-- maths/cross.py:27-32 in two dimensions. -/
noncomputable def cross2_2d (c : ι → ℂ) (a : Fin 2 → ι → ℝ) (b : SArr 2 ι) : ι → ℂ :=
  let c := cross1_2d c (fun i k => (a i k : ℂ)) b
  fun k => c k * I

/-! ## maths/maths.py -/

/-- maths/maths.py:8-11 `u -= sum(K_over_K2*u, 0)*K` (`sum` is the builtin, summing over the first axis from 0).
`K` is taken to be an array broadcast to the shape of `u`. -/
noncomputable def project (u : SArr d ι) (K : Fin d → ι → ℝ) (KoK2 : Fin d → ι → ℝ) : SArr d ι :=
  fun i k => u i k - (∑ j, (KoK2 j k : ℂ) * u j k) * (K i k : ℂ)

/-! ## NS.py: derived fields -/

/-- solvers/NS.py:106-110: `1j*(K[0]*U_hat[0]+K[1]*U_hat[1]+K[2]*U_hat[2])` before `T.backward`. -/
noncomputable def divHat3 (K : Fin 3 → ι → ℝ) (u : SArr 3 ι) : ι → ℂ :=
  fun k => I * (K 0 k * u 0 k + K 1 k * u 1 k + K 2 k * u 2 k)

/-- solvers/NS.py:106-110 `get_divergence`. -/
noncomputable def get_divergence (T : Space ι X) (K : Fin 3 → ι → ℝ) (U_hat : SArr 3 ι) : X → ℝ :=
  T.backward (divHat3 K U_hat)

/-- solvers/NS2D.py:26-30 `get_divergence` in two dimensions. -/
noncomputable def get_divergence2D (T : Space ι X) (K : Fin 2 → ι → ℝ) (U_hat : SArr 2 ι) : X → ℝ :=
  T.backward fun k => I * (K 0 k * U_hat 0 k + K 1 k * U_hat 1 k)

/-- solvers/NS.py:96-99 `get_pressure`: `T.backward(-1j*P_hat)`; the argument of the transform. -/
noncomputable def pressureHat (P_hat : ι → ℂ) : ι → ℂ := fun k => -I * P_hat k

/-- solvers/NS.py:96-99. -/
noncomputable def get_pressure (T : Space ι X) (P_hat : ι → ℂ) : X → ℝ := T.backward (pressureHat P_hat)

/-- solvers/NS.py:124-129 `compute_curl`; `w` is the previous content of the work array. -/
noncomputable def compute_curl (w : SArr 3 ι) (a : SArr 3 ι) (T : Space ι X) (K : Fin 3 → ι → ℝ) : PArr 3 X :=
  T.vbackward (cross2_3d w K a)

/-- solvers/NS.py:131-136 `Cross`: `c_k = F_k(a x b)`; `w` is the previous content of the work array. -/
def Cross (w : PArr 3 X) (a b : PArr 3 X) (T : Space ι X) : SArr 3 ι := T.vforward (cross1_3d w a b)

/-! ## NS.py: convection -/

/-- One pass of the inner loop of solvers/NS.py:142-143: `gradUi[j] = Tp.backward(1j*K[j]*U_hat[i], gradUi[j])`. -/
noncomputable def gradPass (Tp : Space ι X) (K : Fin 3 → ι → ℝ) (Ui : ι → ℂ) (g : PArr 3 X) (j : Fin 3) : PArr 3 X :=
  Function.update g j (Tp.backward fun k => I * K j k * Ui k)

/-- One pass of the outer loop of solvers/NS.py:141-144; the state is `(gradUi, rhs)`. -/
noncomputable def stdPass (u : PArr 3 X) (U_hat : SArr 3 ι) (Tp : Space ι X) (K : Fin 3 → ι → ℝ)
    (st : PArr 3 X × SArr 3 ι) (i : Fin 3) : PArr 3 X × SArr 3 ι :=
  let g := [0, 1, 2].foldl (gradPass Tp K (U_hat i)) st.1
  (g, Function.update st.2 i (Tp.forward fun x => ∑ j, u j x * g j x))

/-- solvers/NS.py:138-145 `standard_convection`; `g` is the previous content of the work array `gradUi`. -/
noncomputable def standard_convection (rhs : SArr 3 ι) (g : PArr 3 X) (u : PArr 3 X) (U_hat : SArr 3 ι) (Tp : Space ι X)
    (K : Fin 3 → ι → ℝ) : SArr 3 ι :=
  ([0, 1, 2].foldl (stdPass u U_hat Tp K) (g, rhs)).2

/-- `rhs[i] += v`. -/
def addRow (rhs : SArr d ι) (i : Fin d) (v : ι → ℂ) : SArr d ι := Function.update rhs i (fun k => rhs i k + v k)

/-- solvers/NS.py:147-162 `divergence_convection`; `UU` is the previous content of the work array `UUi_hat`. -/
noncomputable def divergence_convection (rhs : SArr 3 ι) (UU : SArr 3 ι) (u : PArr 3 X) (Tp : Space ι X) (K : Fin 3 → ι → ℝ)
    (add : Bool) : SArr 3 ι :=
  let rhs := if !add then (fun _ _ => 0) else rhs
  let UU := [0, 1, 2].foldl (fun (UU : SArr 3 ι) i => Function.update UU i (Tp.forward fun x => u 0 x * u i x)) UU
  let rhs := addRow rhs 0 fun k => I * (K 0 k * UU 0 k + K 1 k * UU 1 k + K 2 k * UU 2 k)
  let rhs := addRow rhs 1 fun k => I * K 0 k * UU 1 k
  let rhs := addRow rhs 2 fun k => I * K 0 k * UU 2 k
  let UU := Function.update UU 0 (Tp.forward fun x => u 1 x * u 1 x)
  let UU := Function.update UU 1 (Tp.forward fun x => u 1 x * u 2 x)
  let UU := Function.update UU 2 (Tp.forward fun x => u 2 x * u 2 x)
  let rhs := addRow rhs 1 fun k => I * K 1 k * UU 0 k + I * K 2 k * UU 1 k
  addRow rhs 2 fun k => I * K 1 k * UU 1 k + I * K 2 k * UU 2 k

/-- Previous contents of the work arrays handed out by `work[...]` (real vector with indices 0 and 1, complex vector). -/
structure Scratch (d : ℕ) (ι X : Type*) where
  real0 : PArr d X
  real1 : PArr d X
  cplx0 : SArr d ι

/-- solvers/NS.py:166-172, convection "Standard". -/
noncomputable def convStandard (w : Scratch 3 ι X) (rhs u_hat : SArr 3 ι) (Tp : Space ι X) (K : Fin 3 → ι → ℝ) : SArr 3 ι :=
  let u := Tp.vbackward u_hat
  let rhs := standard_convection rhs w.real1 u u_hat Tp K
  fun i k => rhs i k * (-1)

/-- solvers/NS.py:174-180, convection "Divergence". -/
noncomputable def convDivergence (w : Scratch 3 ι X) (rhs u_hat : SArr 3 ι) (Tp : Space ι X) (K : Fin 3 → ι → ℝ) : SArr 3 ι :=
  let u := Tp.vbackward u_hat
  let rhs := divergence_convection rhs w.cplx0 u Tp K false
  fun i k => rhs i k * (-1)

/-- solvers/NS.py:182-189, convection "Skewed". -/
noncomputable def convSkewed (w : Scratch 3 ι X) (rhs u_hat : SArr 3 ι) (Tp : Space ι X) (K : Fin 3 → ι → ℝ) : SArr 3 ι :=
  let u := Tp.vbackward u_hat
  let rhs := standard_convection rhs w.real1 u u_hat Tp K
  let rhs := divergence_convection rhs w.cplx0 u Tp K true
  fun i k => rhs i k * (-0.5)

/-- solvers/NS.py:191-198, convection "Vortex". -/
noncomputable def convVortex (w : Scratch 3 ι X) (_rhs u_hat : SArr 3 ι) (Tp : Space ι X) (K : Fin 3 → ι → ℝ) : SArr 3 ι :=
  let u := Tp.vbackward u_hat
  let curl := compute_curl w.cplx0 u_hat Tp K
  Cross w.real1 u curl Tp

/-- solvers/NS.py:164-201 `getConvection`; `none` is the exception raised at line 200 for an unknown name (`Conv` is
unbound). -/
noncomputable def getConvection (name : String) :
    Option (Scratch 3 ι X → SArr 3 ι → SArr 3 ι → Space ι X → (Fin 3 → ι → ℝ) → SArr 3 ι) :=
  if name = "Standard" then some convStandard
  else if name = "Divergence" then some convDivergence
  else if name = "Skewed" then some convSkewed
  else if name = "Vortex" then some convVortex
  else none

/-! ## NS.py: right-hand side -/

/-- `rhs.mask_nyquist(mask)` when a mask is set (solvers/NS.py:253-254): the masked modes (`false`) are set to zero. -/
def maskNyquist (mask : Option (ι → Bool)) (rhs : SArr d ι) : SArr d ι :=
  match mask with
  | none => rhs
  | some m => fun i k => rhs i k * (if m k then 1 else 0)

/-- solvers/NS.py:203-217 `add_pressure_diffusion`; returns `(rhs, P_hat)`. -/
noncomputable def add_pressure_diffusion (rhs u_hat : SArr d ι) (nu : ℝ) (K2 : ι → ℝ) (K : Fin d → ι → ℝ)
    (KoK2 : Fin d → ι → ℝ) : SArr d ι × (ι → ℂ) :=
  let P_hat : ι → ℂ := fun k => ∑ i, rhs i k * (KoK2 i k : ℂ)
  let rhs : SArr d ι := fun i k => rhs i k - P_hat k * K i k
  let rhs : SArr d ι := fun i k => rhs i k - (nu * K2 k : ℝ) * u_hat i k
  (rhs, P_hat)

/-- The parts of the context (solvers/NS.py:12-72) and of `params` used by the right-hand sides. -/
structure Ctx (d : ℕ) (ι X : Type*) where
  Tp : Space ι X
  K : Fin d → ι → ℝ
  nu : ℝ
  mask : Option (ι → Bool)
  Source : SArr d ι

/-- solvers/NS.py:219-261 `ComputeRHS`; `conv` is `solver.conv` (any function of the previous `rhs` and the state).  The
result is `(rhs, P_hat)`.  Used for three dimensions by NS and for two by NS2D. -/
noncomputable def ComputeRHS (c : Ctx d ι X) (conv : SArr d ι → SArr d ι → SArr d ι) (rhs u_hat : SArr d ι) :
    SArr d ι × (ι → ℂ) :=
  let rhs := conv rhs u_hat
  let rhs := maskNyquist c.mask rhs
  let r := add_pressure_diffusion rhs u_hat c.nu (K2 c.K) c.K (K_over_K2 c.K)
  (fun i k => r.1 i k + c.Source i k, r.2)

/-- The right-hand side function handed to the integrators (previous content of `rhs`, then the state). -/
noncomputable def rhsNS (c : Ctx d ι X) (conv : SArr d ι → SArr d ι → SArr d ι) (rhs u_hat : SArr d ι) : SArr d ι :=
  (ComputeRHS c conv rhs u_hat).1

/-! ## NS2D.py -/

/-- solvers/NS2D.py:32-51, convection "Vortex" (the others raise `NotImplementedError`); `w` is the previous content of
the work array `curl_hat`. -/
noncomputable def conv2DVortex (w : ι → ℂ) (rhs u_hat : SArr 2 ι) (Tp : Space ι X) (K : Fin 2 → ι → ℝ) : SArr 2 ι :=
  let curl_hat := cross2_2d w K u_hat
  let curl := Tp.backward curl_hat
  let u := Tp.vbackward u_hat
  let rhs := Function.update rhs 0 (Tp.forward fun x => u 1 x * curl x)
  Function.update rhs 1 (Tp.forward fun x => -u 0 x * curl x)

/-- Outcome of `getConvection` of the solvers implementing one form only (NS2D.py:32-51, VV.py:85-103, MHD.py:112-130,
Bq2D.py:101-128). -/
inductive ConvChoice (α : Type*) where
  | notImplemented
  | unbound
  | ok (conv : α)

/-- solvers/NS2D.py:32-51 `getConvection` (and with another function VV.py:85-103, Bq2D.py:101-128). -/
def getConvectionVortexOnly {α : Type*} (name : String) (conv : α) : ConvChoice α :=
  if name = "Standard" ∨ name = "Divergence" ∨ name = "Skewed" then .notImplemented
  else if name = "Vortex" then .ok conv
  else .unbound

/-- solvers/MHD.py:112-130 `getConvection`. -/
def getConvectionDivergenceOnly {α : Type*} (name : String) (conv : α) : ConvChoice α :=
  if name = "Standard" ∨ name = "Vortex" ∨ name = "Skewed" then .notImplemented
  else if name = "Divergence" then .ok conv
  else .unbound

/-! ## VV.py -/

/-- solvers/VV.py:52-67 `compute_velocity` before the transform: `v_hat = 1j*(K_over_K2 x w_hat)`. -/
noncomputable def velocityHat (w : SArr 3 ι) (w_hat : SArr 3 ι) (KoK2 : Fin 3 → ι → ℝ) : SArr 3 ι := cross2_3d w KoK2 w_hat

/-- solvers/VV.py:52-67 `compute_velocity`. -/
noncomputable def compute_velocity (w : SArr 3 ι) (w_hat : SArr 3 ι) (T : Space ι X) (KoK2 : Fin 3 → ι → ℝ) : PArr 3 X :=
  T.vbackward (velocityHat w w_hat KoK2)

/-- solvers/VV.py:74-78 `get_divergence`: the argument of the transform. -/
noncomputable def divHatVV (K : Fin 3 → ι → ℝ) (U_hat W_hat : SArr 3 ι) : ι → ℂ :=
  let U_hat := cross2_3d U_hat K W_hat
  fun k => I * (K 0 k * U_hat 0 k + K 1 k * U_hat 1 k + K 2 k * U_hat 2 k)

/-- solvers/VV.py:90-101, convection "Vortex". -/
noncomputable def convVV (w : Scratch 3 ι X) (rhs w_hat : SArr 3 ι) (Tp : Space ι X) (K KoK2 : Fin 3 → ι → ℝ) : SArr 3 ι :=
  let u := compute_velocity w.cplx0 w_hat Tp KoK2
  let om := Tp.vbackward w_hat
  let v_hat := Cross w.real1 u om Tp
  cross2_3d rhs K v_hat

/-- solvers/VV.py:105-110 `add_linear`. -/
noncomputable def add_linear (rhs w_hat : SArr 3 ι) (nu : ℝ) (K2 : ι → ℝ) (Source : SArr 3 ι) : SArr 3 ι :=
  let rhs : SArr 3 ι := fun i k => rhs i k - (nu * K2 k : ℝ) * w_hat i k
  fun i k => rhs i k + Source i k

/-- solvers/VV.py:112-146 `ComputeRHS`. -/
noncomputable def rhsVV (c : Ctx 3 ι X) (w : Scratch 3 ι X) (rhs w_hat : SArr 3 ι) : SArr 3 ι :=
  let rhs := convVV w rhs w_hat c.Tp c.K (K_over_K2 c.K)
  let rhs := maskNyquist c.mask rhs
  add_linear rhs w_hat c.nu (K2 c.K) c.Source

/-! ## MHD.py.  The array `UB_hat` with six rows is the pair (rows 0-2, rows 3-5), as in the views at lines 63-66. -/

/-- solvers/MHD.py:89-97 `set_Elsasser` (both halves of `c` are overwritten). -/
noncomputable def set_Elsasser (ZZ : Fin 3 → Fin 3 → ι → ℂ) (K : Fin 3 → ι → ℝ) : SArr 3 ι × SArr 3 ι :=
  (fun i k => -I * (K 0 k * (ZZ i 0 k + ZZ 0 i k) + K 1 k * (ZZ i 1 k + ZZ 1 i k) + K 2 k * (ZZ i 2 k + ZZ 2 i k)) / 2.0,
   fun i k => I * (K 0 k * (ZZ 0 i k - ZZ i 0 k) + K 1 k * (ZZ 1 i k - ZZ i 1 k) + K 2 k * (ZZ 2 i k - ZZ i 2 k)) / 2.0)

/-- solvers/MHD.py:99-110 `divergenceConvection`; every entry of `ZZ_hat` is overwritten. -/
noncomputable def divergenceConvection (z0 z1 : PArr 3 X) (Tp : Space ι X) (K : Fin 3 → ι → ℝ) : SArr 3 ι × SArr 3 ι :=
  set_Elsasser (fun i j => Tp.forward fun x => z0 i x * z1 j x) K

/-- solvers/MHD.py:119-127, convection "Divergence". -/
noncomputable def convMHD (ub_hat : SArr 3 ι × SArr 3 ι) (Tp : Space ι X) (K : Fin 3 → ι → ℝ) : SArr 3 ι × SArr 3 ι :=
  let u := Tp.vbackward ub_hat.1
  let b := Tp.vbackward ub_hat.2
  divergenceConvection (fun i x => u i x + b i x) (fun i x => u i x - b i x) Tp K

/-- solvers/MHD.py:132-149 `add_pressure_diffusion`. -/
noncomputable def add_pressure_diffusionMHD (rhs ub_hat : SArr 3 ι × SArr 3 ι) (nu eta : ℝ) (K2 : ι → ℝ)
    (K : Fin 3 → ι → ℝ) (KoK2 : Fin 3 → ι → ℝ) : (SArr 3 ι × SArr 3 ι) × (ι → ℂ) :=
  let P_hat : ι → ℂ := fun k => ∑ i, rhs.1 i k * (KoK2 i k : ℂ)
  let ru : SArr 3 ι := fun i k => rhs.1 i k - P_hat k * K i k
  let ru : SArr 3 ι := fun i k => ru i k - (nu * K2 k : ℝ) * ub_hat.1 i k
  let rb : SArr 3 ι := fun i k => rhs.2 i k - (eta * K2 k : ℝ) * ub_hat.2 i k
  ((ru, rb), P_hat)

/-- solvers/MHD.py:151-176 `ComputeRHS` (the `Source` of the context is not used there); the mask multiplies all six
rows.  `conv` is `solver.conv`. -/
noncomputable def rhsMHD (c : Ctx 3 ι X) (eta : ℝ)
    (conv : SArr 3 ι × SArr 3 ι → SArr 3 ι × SArr 3 ι → SArr 3 ι × SArr 3 ι)
    (rhs ub_hat : SArr 3 ι × SArr 3 ι) : SArr 3 ι × SArr 3 ι :=
  let rhs := conv rhs ub_hat
  let rhs := (maskNyquist c.mask rhs.1, maskNyquist c.mask rhs.2)
  (add_pressure_diffusionMHD rhs ub_hat c.nu eta (K2 c.K) c.K (K_over_K2 c.K)).1

/-! ## Bq2D.py.  The array `Ur_hat` with three rows is the pair (velocity rows 0-1, density row 2). -/

/-- solvers/Bq2D.py:108-125, convection "Vortex"; `w` is the previous content of `F_tmp`. -/
noncomputable def convBq (w : SArr 2 ι) (rhs : SArr 2 ι × (ι → ℂ)) (ur_hat : SArr 2 ι × (ι → ℂ)) (Tp : Space ι X)
    (K : Fin 2 → ι → ℝ) : SArr 2 ι × (ι → ℂ) :=
  let u := Tp.vbackward ur_hat.1
  let rho := Tp.backward ur_hat.2
  let F_tmp := Function.update w 0 (cross2_2d (w 0) K ur_hat.1)
  let curl := Tp.backward (F_tmp 0)
  let ru := Function.update rhs.1 0 (Tp.forward fun x => u 1 x * curl x)
  let ru := Function.update ru 1 (Tp.forward fun x => -u 0 x * curl x)
  let F_tmp := Function.update F_tmp 0 (Tp.forward fun x => u 0 x * rho x)
  let F_tmp := Function.update F_tmp 1 (Tp.forward fun x => u 1 x * rho x)
  (ru, fun k => -I * (K 0 k * F_tmp 0 k + K 1 k * F_tmp 1 k))

/-- solvers/Bq2D.py:130-147 `add_pressure_diffusion`. -/
noncomputable def add_pressure_diffusionBq (rhs ur_hat : SArr 2 ι × (ι → ℂ)) (KoK2 K : Fin 2 → ι → ℝ) (K2 : ι → ℝ)
    (nu Ri Pr : ℝ) : (SArr 2 ι × (ι → ℂ)) × (ι → ℂ) :=
  let u_hat := ur_hat.1
  let rho_hat := ur_hat.2
  let P_hat : ι → ℂ := fun k => ∑ i, rhs.1 i k * (KoK2 i k : ℂ)
  let P_hat : ι → ℂ := fun k => P_hat k - Ri * rho_hat k * KoK2 1 k
  let ru : SArr 2 ι := fun i k => rhs.1 i k - P_hat k * K i k
  let ru := Function.update ru 0 fun k => ru 0 k - (nu * K2 k : ℝ) * u_hat 0 k
  let ru := Function.update ru 1 fun k => ru 1 k - ((nu * K2 k : ℝ) * u_hat 1 k + Ri * rho_hat k)
  let rr : ι → ℂ := fun k => rhs.2 k - (nu * K2 k : ℝ) * rho_hat k / Pr
  ((ru, rr), P_hat)

/-- solvers/Bq2D.py:149-176 `ComputeRHS`; there is no source term. -/
noncomputable def rhsBq (c : Ctx 2 ι X) (Ri Pr : ℝ)
    (conv : SArr 2 ι × (ι → ℂ) → SArr 2 ι × (ι → ℂ) → SArr 2 ι × (ι → ℂ))
    (rhs ur_hat : SArr 2 ι × (ι → ℂ)) : SArr 2 ι × (ι → ℂ) :=
  let rhs := conv rhs ur_hat
  let rhs : SArr 2 ι × (ι → ℂ) := (maskNyquist c.mask rhs.1, maskNyquist (d := 1) c.mask (fun _ => rhs.2) 0)
  (add_pressure_diffusionBq rhs ur_hat (K_over_K2 c.K) c.K (K2 c.K) c.nu Ri Pr).1

end SpectralDNS.Periodic

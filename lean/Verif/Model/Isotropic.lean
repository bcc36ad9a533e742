import Verif.Model.Fourier
import Mathlib.Analysis.SpecialFunctions.Pow.Real
import Mathlib.Analysis.SpecialFunctions.Trigonometric.Basic

/-!
# Model of demo/Isotropic.py: random initial field and forcing

`r` stands for the three arrays of random numbers drawn at line 47 (any real numbers; the seeding by rank is not modelled).
`w` are the weights with which shenfun's `energy_fourier` counts the entries of the half spectrum.  `o` is the index `(0, 0, 0)`.
An operation whose floating point result is not a number (division by zero, root of a negative number) gives `none`.
-/

namespace SpectralDNS.Isotropic

open Complex Periodic

variable {ι X : Type*}

/-- The entries of `config.params` used here (lines 302-306). -/
structure Params where
  Kf2 : ℕ
  nu : ℝ
  kd : ℝ
  Re_lam : ℝ

/-- Line 33: `np.where(c.K2 <= kf**2, 1, 0)`. -/
noncomputable def k2_mask (p : Params) (K : Fin 3 → ι → ℝ) (k : ι) : ℝ := if K2 K k ≤ (p.Kf2 : ℝ) ^ 2 then 1 else 0

/-- Lines 35-36: `k = np.sqrt(c.K2); k = np.where(k == 0, 1, k)`. -/
noncomputable def kMag (K : Fin 3 → ι → ℝ) (k : ι) : ℝ := if √(K2 K k) = 0 then 1 else √(K2 K k)

/-- Lines 37-38: `kk = np.where(kk == 0, 1, kk)`. -/
noncomputable def kSq (K : Fin 3 → ι → ℝ) (k : ι) : ℝ := if K2 K k = 0 then 1 else K2 K k

/-- Lines 40-41: `ksq = np.sqrt(k1**2+k2**2)`, with 0 replaced by 1. -/
noncomputable def kPlane (K : Fin 3 → ι → ℝ) (k : ι) : ℝ :=
  if √(K 0 k ^ 2 + K 1 k ^ 2) = 0 then 1 else √(K 0 k ^ 2 + K 1 k ^ 2)

/-- Lines 43-45. -/
noncomputable def Ek (p : Params) (K : Fin 3 → ι → ℝ) (k : ι) : ℝ :=
  √(9 / 11 / p.Kf2 * K2 K k / (p.Kf2 : ℝ) ^ 2) * k2_mask p K k +
    √(9 / 11 / p.Kf2 * (kMag K k / p.Kf2) ^ (-5 / 3 : ℝ)) * (1 - k2_mask p K k)

/-- Line 47: `np.random.sample(...)*2j*np.pi`. -/
noncomputable def angle (r : ℝ) : ℂ := r * (2 * I) * Real.pi

/-- Line 48; `r` holds the draws for `theta1`, `theta2` and `phi`. -/
noncomputable def alpha (p : Params) (K : Fin 3 → ι → ℝ) (r : Fin 3 → ι → ℝ) (k : ι) : ℂ :=
  (√(Ek p K k / 4 / Real.pi / kSq K k) : ℝ) * Complex.exp (I * angle (r 0 k)) * Complex.cos (angle (r 2 k))

/-- Line 49. -/
noncomputable def beta (p : Params) (K : Fin 3 → ι → ℝ) (r : Fin 3 → ι → ℝ) (k : ι) : ℂ :=
  (√(Ek p K k / 4 / Real.pi / kSq K k) : ℝ) * Complex.exp (I * angle (r 1 k)) * Complex.sin (angle (r 2 k))

/-- Lines 50-52. -/
noncomputable def rogallo (p : Params) (K : Fin 3 → ι → ℝ) (r : Fin 3 → ι → ℝ) : SArr 3 ι := fun i k =>
  match i with
  | 0 => (alpha p K r k * kMag K k * K 1 k + beta p K r k * K 0 k * K 2 k) / (kMag K k * kPlane K k)
  | 1 => (beta p K r k * K 1 k * K 2 k - alpha p K r k * kMag K k * K 0 k) / (kMag K k * kPlane K k)
  | 2 => beta p K r k * kPlane K k / kMag K k

/-- Lines 63-64 and 161-162: `c.U_hat[:, 0, 0, 0] = 0.0` on the rank having that entry. -/
def zeroMean [DecidableEq ι] (o : ι) (u : SArr 3 ι) : SArr 3 ι := fun i => Function.update (u i) o 0

/-- shenfun's `energy_fourier`: weighted sum of `|u|^2` over the components and stored modes. -/
noncomputable def energy [Fintype ι] (w : ι → ℝ) (u : SArr 3 ι) : ℝ := ∑ k, w k * ∑ i, normSq (u i k)

/-- Line 61: `U_hat[:] -= (K[0]*U_hat[0]+K[1]*U_hat[1]+K[2]*U_hat[2])*c.K_over_K2`. -/
noncomputable def projectOut (K : Fin 3 → ι → ℝ) (u : SArr 3 ι) : SArr 3 ι := fun i k =>
  u i k - (K 0 k * u 0 k + K 1 k * u 1 k + K 2 k * u 2 k) * K_over_K2 K i k

/-- Line 68. -/
noncomputable def target (p : Params) : ℝ := p.Re_lam * (p.nu * p.kd) ^ 2 / √(20 / 3)

/-- Lines 67-69: `c.U_hat *= np.sqrt(target/energy)`. -/
noncomputable def rescale [Fintype ι] (p : Params) (w : ι → ℝ) (u : SArr 3 ι) : Option (SArr 3 ι) :=
  let e := 0.5 * energy w u
  if e = 0 ∨ target p / e < 0 then none else some fun i k => (√(target p / e) : ℝ) * u i k

/-- Lines 29-76 of `initialize` with the NS solver: `get_velocity` and `set_velocity` (solvers/NS.py:91-94, 101-104) are the backward
and the forward transform.  The result is `(U_hat, target_energy)`. -/
noncomputable def initializeNS [Fintype ι] [DecidableEq ι] (p : Params) (T : Space ι X) (mask : ι → Bool) (K : Fin 3 → ι → ℝ) (o : ι)
    (w : ι → ℝ) (r : Fin 3 → ι → ℝ) : Option (SArr 3 ι × ℝ) :=
  let u := maskNyquist (some mask) (rogallo p K r)
  let U := T.vbackward u
  let u := T.vforward U
  let u := zeroMean o (projectOut K u)
  (rescale p w u).map fun u => (u, energy w u)

/-- The same with the VV solver, whose `get_velocity` (solvers/VV.py:69-72) computes `U` from `W_hat` and not from `U_hat`; `W_hat` is
still as allocated (solvers/VV.py:28, zero).  `s` is the previous content of a work array.  The result is `(U_hat, W_hat, target)`. -/
noncomputable def initializeVV [Fintype ι] [DecidableEq ι] (p : Params) (T : Space ι X) (mask : ι → Bool) (K : Fin 3 → ι → ℝ) (o : ι)
    (w : ι → ℝ) (s : SArr 3 ι) (r : Fin 3 → ι → ℝ) : Option (SArr 3 ι × SArr 3 ι × ℝ) :=
  let W_hat : SArr 3 ι := 0
  let _u := maskNyquist (some mask) (rogallo p K r)
  let U := compute_velocity s W_hat T (K_over_K2 K)
  let u := T.vforward U
  let u := zeroMean o (projectOut K u)
  (rescale p w u).map fun u => (u, cross2_3d W_hat K u, energy w u)

/-- Lines 167-184 of `update`: scale the modes of the mask so that the energy is `tgt`.  `none` stands for the failed assertion of line
184 (also reached with NaN, from a division by zero or the root of a negative number). -/
noncomputable def force [Fintype ι] (p : Params) (K : Fin 3 → ι → ℝ) (w : ι → ℝ) (tgt : ℝ) (u : SArr 3 ι) : Option (SArr 3 ι) :=
  let energy_new := energy w u
  let energy_lower := energy w fun i k => u i k * k2_mask p K k
  let energy_upper := energy_new - energy_lower
  let alpha2 := (tgt - energy_upper) / energy_lower
  if energy_lower = 0 ∨ alpha2 < 0 then none
  else
    let u : SArr 3 ι := fun i k => u i k * ((√alpha2 * k2_mask p K k + (1 - k2_mask p K k) : ℝ) : ℂ)
    if √((energy w u - tgt) ^ 2) < 1e-7 then some u else none

/-- `update` (lines 161-187) with the NS solver, as far as it changes the solution. -/
noncomputable def updateNS [Fintype ι] [DecidableEq ι] (p : Params) (K : Fin 3 → ι → ℝ) (o : ι) (w : ι → ℝ) (tgt : ℝ) (u : SArr 3 ι) :
    Option (SArr 3 ι) := force p K w tgt (zeroMean o u)

/-- `update` with the VV solver: `U_hat` from `W_hat` (line 165), forcing, `W_hat` from `U_hat` (line 187).  The result is
`(U_hat, W_hat)`. -/
noncomputable def updateVV [Fintype ι] [DecidableEq ι] (p : Params) (K : Fin 3 → ι → ℝ) (o : ι) (w : ι → ℝ) (tgt : ℝ)
    (u W_hat : SArr 3 ι) : Option (SArr 3 ι × SArr 3 ι) :=
  let u := zeroMean o u
  let u := cross2_3d u (K_over_K2 K) W_hat
  (force p K w tgt u).map fun u => (u, cross2_3d W_hat K u)

/-- A run: `steps` are the time steps (any map of the state), each followed by the callback. -/
noncomputable def run [Fintype ι] [DecidableEq ι] (p : Params) (K : Fin 3 → ι → ℝ) (o : ι) (w : ι → ℝ) (tgt : ℝ)
    (steps : List (SArr 3 ι → SArr 3 ι)) (u : SArr 3 ι) : Option (SArr 3 ι) :=
  steps.foldlM (fun u step => updateNS p K o w tgt (step u)) u

/-! ## The spectrum -/

/-- Line 98: `np.array(range(0, Nb))+0.5`. -/
noncomputable def bins (j : ℕ) : ℝ := j + 0.5

/-- Line 99: `np.digitize(x, bins, right=True)`, the number of bins below `x` (numpy's definition for increasing bins:
`bins[i-1] < x <= bins[i]`). -/
noncomputable def digitize (Nb : ℕ) (x : ℝ) : ℕ := ((Finset.range Nb).filter fun j => bins j < x).card

/-- Lines 104-106: the modes sampled for entry `i` (`i < Nb - 1`). -/
def sampled (Nb : ℕ) (K : Fin 3 → ι → ℝ) (i : ℕ) (k : ι) : Prop :=
  bins i < (digitize Nb (√(K2 K k)) : ℝ) ∧ (digitize Nb (√(K2 K k)) : ℝ) ≤ bins (i + 1)

end SpectralDNS.Isotropic

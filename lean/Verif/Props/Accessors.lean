import Verif.Model.Accessors
import Verif.Props.WeakNS
import Verif.Props.TaylorGreen
import Verif.Props.Short
import Verif.Props.DemoStarts

/-!
# C94: the arrays returned by the periodic solvers are the values of the velocity, of its derivatives and of the density
-/

namespace SpectralDNS.Periodic

open Complex Spec Dealias Torus Demos

/-! ## Specification -/

/-- The curl of a vector field in space. -/
noncomputable def curlOf (f : Fin 3 → (Fin 3 → ℝ) → ℝ) : Fin 3 → (Fin 3 → ℝ) → ℝ := fun i x =>
  pderiv (i + 1) (f (i + 2)) x - pderiv (i + 2) (f (i + 1)) x

/-- The curl of a vector field in the plane. -/
noncomputable def curlOf2 (f : Fin 2 → (Fin 2 → ℝ) → ℝ) (x : Fin 2 → ℝ) : ℝ := pderiv 0 (f 1) x - pderiv 1 (f 0) x

/-- The divergence. -/
noncomputable def divOf {d : ℕ} (f : Fin d → (Fin d → ℝ) → ℝ) (x : Fin d → ℝ) : ℝ := ∑ i, pderiv i (f i) x

/-- The vector field with coefficients `u` on the box with sides `L`. -/
noncomputable abbrev vfn {n : ℕ} (N : Fin (n + 1) → ℕ) (L : Fin (n + 1) → ℝ) {d : ℕ} (u : SArr d (RModes N)) : Fin d → (Fin (n + 1) → ℝ) → ℝ :=
  fun i => fn N L (u i)

/-- The point of the box with index `x`. -/
noncomputable abbrev pt {n : ℕ} (L : Fin (n + 1) → ℝ) {M : Fin (n + 1) → ℕ} (x : Grid M) : Fin (n + 1) → ℝ := fun i => L i * (x i : ℕ) / M i

/-! ## Coefficients and fields -/

section
variable {n : ℕ} {N : Fin (n + 1) → ℕ} {L : Fin (n + 1) → ℝ}

theorem fn_sub (a b : RModes N → ℂ) (x : Fin (n + 1) → ℝ) : fn N L (fun k => a k - b k) x = fn N L a x - fn N L b x := by
  simp only [fn, trigField, ← sub_re, ← Finset.sum_sub_distrib]
  congr 1
  exact Finset.sum_congr rfl fun k _ => by ring

theorem divOf_vfn (u : SArr (n + 1) (RModes N)) (x : Fin (n + 1) → ℝ) :
    divOf (vfn N L u) x = fn N L (fun k => ∑ i, Spec.deriv (scaledWaves N L) i (u i) k) x := by
  simp only [divOf, vfn, fn, pderiv_trigField]
  rw [← trigField_sum]

end

theorem curlOf_vfn {N : Fin 3 → ℕ} {L : Fin 3 → ℝ} (u : SArr 3 (RModes N)) (i : Fin 3) (x : Fin 3 → ℝ) :
    curlOf (vfn N L u) i x = fn N L (Spec.curl (scaledWaves N L) u i) x := by
  simp only [curlOf, vfn, fn, pderiv_trigField]
  rw [← fn_sub]
  congr 1
  funext k
  simp only [Spec.curl, Spec.cross, Spec.deriv]
  ring

/-! ## NS -/

section
variable {N : Fin 3 → ℕ} {L : Fin 3 → ℝ}

/-- C94, NS: on the grid of any transform, whatever the coefficients, `get_velocity`, `get_curl` and `get_divergence` return the values of
the velocity, of its curl and of its divergence. -/
theorem C94_ns (M : Fin 3 → ℕ) (hL : ∀ i, L i ≠ 0) (w U_hat : SArr 3 (RModes N)) (x : Grid M) :
    (∀ i, get_velocity (rspace N M) U_hat i x = vfn N L U_hat i (pt L x)) ∧
    (∀ i, get_curl w (rspace N M) (scaledWaves N L) U_hat i x = curlOf (vfn N L U_hat) i (pt L x)) ∧
    get_divergence (rspace N M) (scaledWaves N L) U_hat x = divOf (vfn N L U_hat) (pt L x) := by
  refine ⟨fun i => C83_grid N L M hL _ x, fun i => ?_, ?_⟩
  · rw [curlOf_vfn, get_curl, compute_curl, cross2_3d_eq]
    exact C83_grid N L M hL _ x
  · rw [divOf_vfn, get_divergence, ← C83_grid N L M hL]
    congr 1
    funext k
    show _ = ∑ i : Fin 3, _
    simp only [divHat3, Spec.deriv, Fin.sum_univ_three]
    ring

/-- C94, NS: after any number of steps of any integrator from a divergence-free velocity `get_divergence` returns zero everywhere. -/
theorem C94_ns_divergence {Y : Type*} (c : Ctx 3 (RModes N) Y) (hK : c.K = scaledWaves N L) (conv) (hs : Solenoidal c.K c.Source)
    (est : SArr 3 (RModes N) → SArr 3 (RModes N) → SArr 3 (RModes N) → PyF) (fuel : ℕ) (m : Method) (ds : List ℝ)
    (tstep : ℕ) (rhs u : SArr 3 (RModes N)) (hu : Solenoidal c.K u) (r : Closure (SArr 3 (RModes N)))
    (h : runSteps (rhsNS c conv) est fuel m tstep ds (getintegrator rhs u) = some r) (hL : ∀ i, L i ≠ 0) (M : Fin 3 → ℕ) (x : Grid M) :
    get_divergence (rspace N M) c.K r.u0 x = 0 := by
  have h1 := C02_divergence_free_preserved c conv hs est fuel m ds tstep rhs u hu r h
  rw [hK] at h1 ⊢
  rw [(C94_ns M hL u r.u0 x).2.2]
  exact C83_divergence N L r.u0 h1 _

/-! ## VV -/

/-- C94, VV: `get_velocity` returns the values of a velocity with zero divergence; if the vorticity is divergence free with zero mean, the
curl of this velocity is the vorticity at every point of the box, and `get_curl` returns its values. -/
theorem C94_vv (M : Fin 3 → ℕ) (hL : ∀ i, L i ≠ 0) (w W_hat : SArr 3 (RModes N)) :
    ∃ V : Fin 3 → (Fin 3 → ℝ) → ℝ, (∀ (x : Grid M) i, get_velocityVV w (rspace N M) (scaledWaves N L) W_hat i x = V i (pt L x)) ∧
      (∀ y, divOf V y = 0) ∧
      (Solenoidal (scaledWaves N L) W_hat → ZeroMean (scaledWaves N L) W_hat →
        (∀ i y, curlOf V i y = vfn N L W_hat i y) ∧ ∀ (x : Grid M) i, get_curlVV (rspace N M) W_hat i x = curlOf V i (pt L x)) := by
  refine ⟨vfn N L (velocityHat w W_hat (K_over_K2 (scaledWaves N L))), fun x i => C83_grid N L M hL _ x, fun y =>
    C83_divergence N L _ (C08_velocity_solenoidal w W_hat _).1 y, fun h1 h2 => ?_⟩
  have e : ∀ i y, curlOf (vfn N L (velocityHat w W_hat (K_over_K2 (scaledWaves N L)))) i y = vfn N L W_hat i y := fun i y => by
    rw [curlOf_vfn, C08_curl_velocity w W_hat _ h1 h2]
  exact ⟨e, fun x i => by rw [e]; exact C83_grid N L M hL _ x⟩

/-- C94: the NS solver at a divergence-free velocity with zero mean and the VV solver at its curl return the same velocity and the same
curl, on every grid. -/
theorem C94_ns_vv (M : Fin 3 → ℕ) (w w' w'' U_hat : SArr 3 (RModes N)) (hu : Solenoidal (scaledWaves N L) U_hat) (h0 : ZeroMean (scaledWaves N L) U_hat) :
    let K := scaledWaves N L
    let W_hat := cross2_3d w'' K U_hat
    get_velocityVV w (rspace N M) K W_hat = get_velocity (rspace N M) U_hat ∧ get_curlVV (rspace N M) W_hat = get_curl w' (rspace N M) K U_hat := by
  intro K W_hat
  have e : W_hat = Spec.curl K U_hat := cross2_3d_eq _ _ _
  constructor
  · rw [get_velocityVV, compute_velocity, e, C08_velocity_of_curl w U_hat K hu h0]; rfl
  · rw [get_curl, compute_curl, cross2_3d_eq, e]; rfl

/-- The hypotheses on a non-trivial field: the Taylor-Green vortex of demo/TG.py. -/
example (N : Fin 3 → ℕ) (hN : ∀ i, 2 < N i) (w w' w'' : SArr 3 (RModes N)) :
    let K := scaledWaves N fun _ => 2 * Real.pi
    let U_hat := initialize1 N fun _ => 2 * Real.pi
    get_velocityVV w (rspace N N) K (cross2_3d w'' K U_hat) = get_velocity (rspace N N) U_hat ∧
      gridEnergy N (get_curl w' (rspace N N) K U_hat) = 3 / 8 :=
  have h := C71_taylor_green (fun _ => 1) N (fun _ => one_pos) (fun i => by simpa using hN i) _ (fun _ => by simp) w'
  ⟨(C94_ns_vv N w w' w'' _ h.1 h.2.1).1, h.2.2.2⟩

/-- C94, VV: `get_divergence` returns zero whatever the state, and leaves the curl of the vorticity in `U_hat`: the transform of what
`get_curl` of NS would return for it, not a velocity. -/
theorem C94_vv_divergence (M : Fin 3 → ℕ) (hL : ∀ i, L i ≠ 0) (U_hat W_hat : SArr 3 (RModes N)) :
    let r := get_divergenceVV (rspace N M) (scaledWaves N L) U_hat W_hat
    (∀ x, r.1 x = 0) ∧ ∀ i y, vfn N L r.2 i y = curlOf (vfn N L W_hat) i y := by
  intro r
  refine ⟨fun x => ?_, fun i y => ?_⟩
  · show (rspace N M).backward _ x = 0
    rw [C08_get_divergence_blind, C83_grid N L M hL]
    simp [fn, trigField]
  · rw [curlOf_vfn, ← cross2_3d_eq U_hat]
    rfl

/-! ## MHD -/

/-- C94, MHD: the array written to the results file holds the values of the velocity and of the magnetic field, and `get_divergence` returns
those of the divergence of the velocity. -/
theorem C94_mhd (M : Fin 3 → ℕ) (hL : ∀ i, L i ≠ 0) (UB_hat : SArr 3 (RModes N) × SArr 3 (RModes N)) (x : Grid M) :
    (∀ i, (update_componentsMHD (rspace N M) UB_hat).1 i x = vfn N L UB_hat.1 i (pt L x)) ∧
    (∀ i, (update_componentsMHD (rspace N M) UB_hat).2 i x = vfn N L UB_hat.2 i (pt L x)) ∧
    get_divergenceMHD (rspace N M) (scaledWaves N L) UB_hat x = divOf (vfn N L UB_hat.1) (pt L x) :=
  ⟨fun _ => C83_grid N L M hL _ x, fun _ => C83_grid N L M hL _ x, (C94_ns M hL UB_hat.1 UB_hat.1 x).2.2⟩

end

/-! ## NS2D and Bq2D -/

section
variable {N : Fin 2 → ℕ} {L : Fin 2 → ℝ}

/-- C94, NS2D. -/
theorem C94_ns2d (M : Fin 2 → ℕ) (hL : ∀ i, L i ≠ 0) (U_hat : SArr 2 (RModes N)) (x : Grid M) :
    (∀ i, get_velocity (rspace N M) U_hat i x = vfn N L U_hat i (pt L x)) ∧
    get_curl2D (rspace N M) (scaledWaves N L) U_hat x = curlOf2 (vfn N L U_hat) (pt L x) ∧
    get_divergence2D (rspace N M) (scaledWaves N L) U_hat x = divOf (vfn N L U_hat) (pt L x) := by
  refine ⟨fun i => C83_grid N L M hL _ x, ?_, ?_⟩
  · simp only [curlOf2, vfn, fn, pderiv_trigField]
    rw [← fn_sub, get_curl2D, cross2_2d_eq, C83_grid N L M hL]
    congr 1
    funext k
    simp only [Spec.deriv]
    ring
  · rw [divOf_vfn, get_divergence2D, ← C83_grid N L M hL]
    congr 1
    funext k
    show _ = ∑ i : Fin 2, _
    simp only [Spec.deriv, Fin.sum_univ_two]
    ring

/-- C94, NS2D: after any number of steps of any integrator from a divergence-free velocity `get_divergence` returns zero everywhere. -/
theorem C94_ns2d_divergence {Y : Type*} (c : Ctx 2 (RModes N) Y) (hK : c.K = scaledWaves N L) (conv) (hs : Solenoidal c.K c.Source)
    (est : SArr 2 (RModes N) → SArr 2 (RModes N) → SArr 2 (RModes N) → PyF) (fuel : ℕ) (m : Method) (ds : List ℝ)
    (tstep : ℕ) (rhs u : SArr 2 (RModes N)) (hu : Solenoidal c.K u) (r : Closure (SArr 2 (RModes N)))
    (h : runSteps (rhsNS c conv) est fuel m tstep ds (getintegrator rhs u) = some r) (hL : ∀ i, L i ≠ 0) (M : Fin 2 → ℕ) (x : Grid M) :
    get_divergence2D (rspace N M) c.K r.u0 x = 0 := by
  have h1 := C02_divergence_free_preserved c conv hs est fuel m ds tstep rhs u hu r h
  rw [hK] at h1 ⊢
  rw [(C94_ns2d M hL r.u0 x).2.2]
  exact C83_divergence N L r.u0 h1 _

/-- C94, Bq2D: `get_velocity`, `get_rho`, `get_Ur`, and `get_curl` and `get_divergence` taken over from NS2D. -/
theorem C94_bq (M : Fin 2 → ℕ) (hL : ∀ i, L i ≠ 0) (Ur_hat : SArr 2 (RModes N) × (RModes N → ℂ)) (x : Grid M) :
    (∀ i, get_velocityBq (rspace N M) Ur_hat i x = vfn N L Ur_hat.1 i (pt L x)) ∧ get_rho (rspace N M) Ur_hat x = fn N L Ur_hat.2 (pt L x) ∧
    get_Ur (rspace N M) Ur_hat = (get_velocityBq (rspace N M) Ur_hat, get_rho (rspace N M) Ur_hat) ∧
    get_curl2D (rspace N M) (scaledWaves N L) Ur_hat.1 x = curlOf2 (vfn N L Ur_hat.1) (pt L x) ∧
    get_divergence2D (rspace N M) (scaledWaves N L) Ur_hat.1 x = divOf (vfn N L Ur_hat.1) (pt L x) :=
  ⟨fun _ => C83_grid N L M hL _ x, C83_grid N L M hL _ x, rfl, (C94_ns2d M hL Ur_hat.1 x).2.1, (C94_ns2d M hL Ur_hat.1 x).2.2⟩

end

end SpectralDNS.Periodic

/-! ## The script spectralDNS3D_short.py -/

namespace SpectralDNS.Short

open Complex Spec Periodic Torus

/-- The number of modes which a stored one represents, with the normalization of numpy's inverse transforms. -/
noncomputable def shortWeight (N : ℕ) (k : Modes N) : ℝ := (if (k.2.2 : ℕ) = 0 ∨ 2 * (k.2.2 : ℕ) = N then 1 else 2) / N ^ 3

/-- The wavenumbers of the box with side `2 pi`, positive and negative ones along the first two axes. -/
def shortWave (N : ℕ) (i : Fin 3) (k : Modes N) : ℝ :=
  ![if 2 * (k.1 : ℕ) < N then ((k.1 : ℕ) : ℝ) else ((k.1 : ℕ) : ℝ) - N, if 2 * (k.2.1 : ℕ) < N then ((k.2.1 : ℕ) : ℝ) else ((k.2.1 : ℕ) : ℝ) - N,
    ((k.2.2 : ℕ) : ℝ)] i

/-- The point `X` of line 26. -/
noncomputable def shortPt {N : ℕ} (x : Points N) : Fin 3 → ℝ :=
  ![2 * Real.pi * (x.1 : ℕ) / N, 2 * Real.pi * (x.2.1 : ℕ) / N, 2 * Real.pi * (x.2.2 : ℕ) / N]

/-- The function with the coefficients `c` of the script. -/
noncomputable def shortFn {N : ℕ} (c : Modes N → ℂ) : (Fin 3 → ℝ) → ℝ := trigField (shortWeight N) (shortWave N) c

theorem root_freq {N : ℕ} (hN : 0 < N) (k x : Fin N) :
    root N ((k : ℕ) * (x : ℕ) : ℤ) = Complex.exp (I * (((if 2 * (k : ℕ) < N then ((k : ℕ) : ℝ) else ((k : ℕ) : ℝ) - N : ℝ) : ℂ) * ((2 * Real.pi * (x : ℕ) / N : ℝ) : ℂ))) := by
  have hN' : (N : ℂ) ≠ 0 := by exact_mod_cast hN.ne'
  split_ifs
  · rw [root]; congr 1; push_cast; ring
  · have : I * ((((k : ℕ) : ℝ) - N : ℝ) : ℂ) * ((2 * Real.pi * (x : ℕ) / N : ℝ) : ℂ) = 2 * Real.pi * I * ((((k : ℕ) * (x : ℕ) : ℤ) : ℂ) / N) - ((x : ℕ) : ℤ) * (2 * Real.pi * I) := by
      push_cast; field_simp
    rw [← mul_assoc, this, Complex.exp_sub, Complex.exp_int_mul_two_pi_mul_I, div_one, root]

theorem root_z {N : ℕ} (k : Fin (N / 2 + 1)) (x : Fin N) :
    root N ((k : ℕ) * (x : ℕ) : ℤ) = Complex.exp (I * (((k : ℕ) : ℝ) * ((2 * Real.pi * (x : ℕ) / N : ℝ) : ℂ))) := by
  rw [root]; congr 1; push_cast; ring

/-- C60.  The inverse transform of the script gives the values at the points `X` of the function with these coefficients. -/
theorem C60_field (N : ℕ) (nu dt : ℝ) (c : Modes N → ℂ) (x : Points N) : (setup N nu dt).T.backward c x = shortFn c (shortPt x) := by
  have hN : 0 < N := x.1.pos
  show irfft2 (fun k1 k2 => ifft (fun k0 => c (k0, k1, k2)) x.1) x.2.1 x.2.2 = _
  simp only [irfft2, irfft, ifft, shortFn, trigField, Fintype.sum_prod_type, Fin.sum_univ_three, shortWeight, shortWave, shortPt]
  simp only [Matrix.cons_val_zero, Matrix.cons_val_one, Matrix.cons_val]
  have tri : ∀ f : Fin N → Fin N → Fin (N / 2 + 1) → ℂ, ∑ a, ∑ b, ∑ c, f a b c = ∑ c, ∑ b, ∑ a, f a b c := fun f => by
    rw [show (fun a => ∑ b, ∑ c, f a b c) = fun a => ∑ c, ∑ b, f a b c from funext fun a => Finset.sum_comm, Finset.sum_comm]
    exact Finset.sum_congr rfl fun c _ => Finset.sum_comm
  rw [tri, re_sum, Finset.mul_sum]
  refine Finset.sum_congr rfl fun k2 _ => ?_
  rw [← mul_assoc, ← Complex.re_ofReal_mul]
  congr 1
  simp only [Finset.mul_sum, Finset.sum_mul]
  refine Finset.sum_congr rfl fun k1 _ => Finset.sum_congr rfl fun k0 _ => ?_
  rw [root_freq hN k0 x.1, root_freq hN k1 x.2.1, root_z k2 x.2.2]
  rw [mul_add, mul_add, Complex.exp_add, Complex.exp_add]
  push_cast
  ring

/-- C60.  `Curl` of the script returns the values at the points `X` of the curl of the velocity: the wavenumbers are those of the transforms. -/
theorem C60_curl (N : ℕ) (nu dt : ℝ) (u : SArr 3 (Modes N)) (i : Fin 3) (x : Points N) :
    Curl (setup N nu dt) u i x = curlOf (fun j => shortFn (u j)) i (shortPt x) := by
  have hK : ∀ j k, ((setup N nu dt).K j k : ℝ) = shortWave N j k := fun j k => by
    fin_cases j
    · show ((freq N k.1 : ℤ) : ℝ) = if _ then _ else _
      unfold freq; split_ifs <;> push_cast <;> rfl
    · show ((freq N k.2.1 : ℤ) : ℝ) = if _ then _ else _
      unfold freq; split_ifs <;> push_cast <;> rfl
    · show ((freqz N k.2.2 : ℤ) : ℝ) = ((k.2.2 : ℕ) : ℝ)
      unfold freqz; push_cast; rfl
  have hsub : ∀ (a b : Modes N → ℂ) y, shortFn (fun k => a k - b k) y = shortFn a y - shortFn b y := fun a b y => by
    simp only [shortFn, trigField, ← sub_re, ← Finset.sum_sub_distrib]
    congr 1
    exact Finset.sum_congr rfl fun k _ => by ring
  simp only [curlOf]
  simp only [shortFn, pderiv_trigField]
  have hs := hsub (Spec.deriv (shortWave N) (i + 1) (u (i + 2))) (Spec.deriv (shortWave N) (i + 2) (u (i + 1))) (shortPt x)
  simp only [shortFn] at hs
  rw [← hs]
  have e : Curl (setup N nu dt) u i x = (setup N nu dt).T.backward (fun k => Spec.deriv (shortWave N) (i + 1) (u (i + 2)) k - Spec.deriv (shortWave N) (i + 2) (u (i + 1)) k) x := by
    obtain ⟨h1, h2, h3, h4, h5, h6⟩ := fin3_add
    fin_cases i <;> simp only [Curl, Fin.zero_eta, Fin.mk_one, Fin.reduceFinMk, h1, h2, h3, h4, h5, h6, Spec.deriv, hK] <;>
      congr 1 <;> funext k <;> ring
  rw [e, C60_field]
  rfl

end SpectralDNS.Short

/-! ## The start of demo/Vortices2D.py as `get_curl` shows it -/

namespace SpectralDNS.Demos

open Complex Spec Periodic Torus

/-- A round Gaussian vortex at `c`. -/
noncomputable def gaussVortex (c : ℝ × ℝ) (a : ℝ) (X Y : ℝ) : ℝ := Real.exp (-((X - c.1) ^ 2 + (Y - c.2) ^ 2) / a)

/-- Two equal vortices one above the other along the second axis and a weaker one of opposite sign beside the second. -/
noncomputable def threeVortices (X Y : ℝ) : ℝ :=
  gaussVortex (Real.pi, 3 / 4 * Real.pi) (1 / 5) X Y + gaussVortex (Real.pi, 5 / 4 * Real.pi) (1 / 5) X Y
    - 1 / 2 * gaussVortex (5 / 4 * Real.pi, 5 / 4 * Real.pi) (2 / 5) X Y

/-- C89.  On grids with odd numbers of points `get_curl` shows at the start of Vortices2D the three vortices less their mean, at every grid point. -/
theorem C89_vortices2D_curl {N : Fin 2 → ℕ} (hodd : ∀ i, N i % 2 = 1) (L : Fin 2 → ℝ) (hL : ∀ i, L i ≠ 0) (x : Grid N) :
    get_curl2D (rspace N N) (scaledWaves N L) (vortices2DInit L) x =
      threeVortices (L 0 * (x 0 : ℕ) / N 0) (L 1 * (x 1 : ℕ) / N 1)
        - (1 / (Fintype.card (Grid N) : ℝ)) * ∑ y : Grid N, threeVortices (L 0 * (y 0 : ℕ) / N 0) (L 1 * (y 1 : ℕ) / N 1) := by
  have hN : ∀ i, 0 < N i := fun i => by have := hodd i; omega
  have hcard : (Fintype.card (Grid N) : ℂ) ≠ 0 := by
    have : ∀ i, Nonempty (Fin (N i)) := fun i => ⟨⟨0, hN i⟩⟩
    exact_mod_cast Fintype.card_ne_zero
  have hmask : ∀ k, nyquistMask N k = true := fun k => by
    rw [nyquistMask_iff]
    intro i
    have h1 := hodd i
    have h2 : -(N i : ℤ) ≤ 2 * Periodic.waves N i k ∧ 2 * Periodic.waves N i k ≤ N i := by
      have hk := (k i).2
      unfold Periodic.waves
      unfold rdim at hk
      split_ifs at hk ⊢ <;> omega
    omega
  have hthree : ∀ X Y, vortexFun X Y = threeVortices X Y := fun X Y => by
    simp only [vortexFun, threeVortices, gaussVortex]
    ring_nf
  set w : Grid N → ℝ := fun y => threeVortices (L 0 * (y 0 : ℕ) / N 0) (L 1 * (y 1 : ℕ) / N 1) with hw
  set m : ℝ := (1 / (Fintype.card (Grid N) : ℝ)) * ∑ y, w y with hm
  have hinit : vortices2DInit (N := N) L = fromVorticity (scaledWaves N L) w := by
    simp only [vortices2DInit, hthree]
    rfl
  have hsub : ∀ k, (rspace N N).forward (fun y => w y - m) k = (rspace N N).forward w k - (rspace N N).forward (fun _ => m) k := fun k => by
    simp only [rspace, dft, ofReal_sub, sub_mul, Finset.sum_sub_distrib, mul_sub]
  have key : cross2_2d (fun _ => 0) (scaledWaves N L) (vortices2DInit L) = (rspace N N).forward fun y => w y - m := by
    funext k
    obtain ⟨-, h0, h1⟩ := C89_vortices2D hN L w (fun _ => 0) k (hmask k)
    rw [hinit]
    by_cases hk : ∃ i, scaledWaves N L i k ≠ 0
    · obtain ⟨i, hi⟩ := hk
      have hwi : Periodic.waves N i k ≠ 0 := fun h => hi (by simp [scaledWaves, h])
      rw [h1 ⟨i, hi⟩, hsub, forward_const_axis hN i (fun _ => m) (fun _ _ => rfl) k hwi, sub_zero]
    · push Not at hk
      have hz : ∀ i, Periodic.waves N i k = 0 := fun i => by
        have := hk i
        have hp := Real.pi_ne_zero
        simp only [scaledWaves, mul_eq_zero, div_eq_zero_iff, hL i, hp, or_false, false_or] at this
        rcases this with h | h
        · norm_num at h
        · exact_mod_cast h
      have e : ∀ y, kernel (Periodic.waves N) N k y = 1 := fun y => by simp [kernel, hz]
      rw [cross2_2d_eq]
      beta_reduce
      rw [hk 0, hk 1]
      simp only [rspace, dft, e, map_one, mul_one, ofReal_sub, Finset.sum_sub_distrib, Finset.sum_const, Finset.card_univ, nsmul_eq_mul, hm]
      push_cast
      field_simp
      simp
  rw [get_curl2D, key, backward_forward N hN]

end SpectralDNS.Demos

/-- The hypotheses of `C89_vortices2D_curl` met: 15 × 15 points in the box of the demo. -/
example (x : SpectralDNS.Periodic.Grid (fun _ : Fin 2 => 15)) :=
  SpectralDNS.Demos.C89_vortices2D_curl (N := fun _ => 15) (fun _ => rfl) (fun _ => 2 * Real.pi) (fun _ => by positivity) x

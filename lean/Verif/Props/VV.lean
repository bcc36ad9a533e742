import Verif.Lemmas.Convection
import Verif.Props.Solenoidal

/-!
# C08–C10: the velocity-vorticity solver
-/

namespace SpectralDNS.Periodic

open Complex

variable {ι X : Type*}

theorem fin3_add : (0 : Fin 3) + 1 = 1 ∧ (0 : Fin 3) + 2 = 2 ∧ (1 : Fin 3) + 1 = 2 ∧ (1 : Fin 3) + 2 = 0 ∧
    (2 : Fin 3) + 1 = 0 ∧ (2 : Fin 3) + 2 = 1 := by decide

theorem curl_curl (K : Fin 3 → ι → ℝ) (u : SArr 3 ι) (i : Fin 3) (k : ι) :
    Spec.curl K (Spec.curl K u) i k = (K2 K k : ℂ) * u i k - K i k * Spec.dot (Spec.at' K k) (Spec.at' u k) := by
  obtain ⟨h1, h2, h3, h4, h5, h6⟩ := fin3_add
  fin_cases i <;>
    simp only [Spec.curl, Spec.cross, K2, Spec.dot, Spec.at', Fin.sum_univ_three, Fin.zero_eta, Fin.mk_one,
      Fin.reduceFinMk, h1, h2, h3, h4, h5, h6] <;> push_cast
  · linear_combination (K 1 k * (K 0 k * u 1 k - K 1 k * u 0 k) - K 2 k * (K 2 k * u 0 k - K 0 k * u 2 k)) * I_mul_I
  · linear_combination (K 2 k * (K 1 k * u 2 k - K 2 k * u 1 k) - K 0 k * (K 0 k * u 1 k - K 1 k * u 0 k)) * I_mul_I
  · linear_combination (K 0 k * (K 2 k * u 0 k - K 0 k * u 2 k) - K 1 k * (K 1 k * u 2 k - K 2 k * u 1 k)) * I_mul_I

theorem dot_curl (K : Fin 3 → ι → ℝ) (u : SArr 3 ι) (k : ι) :
    Spec.dot (Spec.at' K k) (Spec.at' (Spec.curl K u) k) = 0 := by
  obtain ⟨h1, h2, h3, h4, h5, h6⟩ := fin3_add
  simp only [Spec.curl, Spec.cross, Spec.dot, Spec.at', Fin.sum_univ_three, h1, h2, h3, h4, h5, h6]
  ring

theorem curl_linear (K : Fin 3 → ι → ℝ) (a b : ℝ) (u v : SArr 3 ι) :
    Spec.curl K (a • u + b • v) = a • Spec.curl K u + b • Spec.curl K v := by
  funext i k
  simp only [Spec.curl, Spec.cross, Pi.add_apply, Pi.smul_apply, real_smul]
  ring

/-- Multiplying the recovered velocity by `|k|^2` gives `i k x w`. -/
theorem velocityHat_mul (s w : SArr 3 ι) (K : Fin 3 → ι → ℝ) (i : Fin 3) (k : ι) :
    (K2 K k : ℂ) * velocityHat s w (K_over_K2 K) i k = Spec.curl K w i k := by
  have h : ∀ j, (K_over_K2 K j k : ℂ) * (K2 K k : ℂ) = (K j k : ℂ) := fun j => by rw [← ofReal_mul, KoK2_mul]
  rw [velocityHat, cross2_3d_eq]
  simp only [Spec.curl, Spec.cross]
  linear_combination I * (w (i + 2) k * h (i + 1) - w (i + 1) k * h (i + 2))

theorem velocityHat_zero (s w : SArr 3 ι) (K : Fin 3 → ι → ℝ) (k : ι) (hk : ∀ i, K i k = 0) (i : Fin 3) :
    velocityHat s w (K_over_K2 K) i k = 0 := by
  rw [velocityHat, cross2_3d_eq]
  simp [Spec.curl, Spec.cross, KoK2_zero K k hk]

/-! ## C08 -/

/-- C08.  The recovered velocity is divergence free and has zero mean, for every vorticity. -/
theorem C08_velocity_solenoidal (s w : SArr 3 ι) (K : Fin 3 → ι → ℝ) :
    Spec.Solenoidal K (velocityHat s w (K_over_K2 K)) ∧ Spec.ZeroMean K (velocityHat s w (K_over_K2 K)) := by
  refine ⟨fun k => ?_, fun k hk i => velocityHat_zero s w K k hk i⟩
  by_cases hk : K2 K k = 0
  · have hk := (K2_eq_zero K k).1 hk
    simp [Spec.dot, Spec.at', hk]
  · have hk' : (K2 K k : ℂ) ≠ 0 := by exact_mod_cast hk
    have h := dot_curl K w k
    have e : Spec.at' (Spec.curl K w) k = fun i => (K2 K k : ℂ) * Spec.at' (velocityHat s w (K_over_K2 K)) k i := by
      funext i; exact (velocityHat_mul s w K i k).symm
    rw [e, dot_smul] at h
    exact (mul_eq_zero.1 h).resolve_left hk'

/-- C08.  Its curl is the vorticity, when the vorticity is divergence free and has zero mean. -/
theorem C08_curl_velocity (s w : SArr 3 ι) (K : Fin 3 → ι → ℝ) (hw : Spec.Solenoidal K w) (h0 : Spec.ZeroMean K w) :
    Spec.curl K (velocityHat s w (K_over_K2 K)) = w := by
  funext i k
  by_cases hk : K2 K k = 0
  · have hk := (K2_eq_zero K k).1 hk
    rw [h0 k hk i]
    simp [Spec.curl, Spec.cross, hk]
  · have hk' : (K2 K k : ℂ) ≠ 0 := by exact_mod_cast hk
    apply mul_left_cancel₀ hk'
    have h := curl_curl K w i k
    rw [hw k, mul_zero, sub_zero] at h
    rw [← h]
    simp only [Spec.curl, Spec.cross]
    have e := fun j => velocityHat_mul s w K j k
    simp only [Spec.curl, Spec.cross] at e
    linear_combination I * ((K (i + 1) k : ℂ) * e (i + 2) - K (i + 2) k * e (i + 1))

/-- C08.  Recovering the velocity from the curl of a divergence-free zero-mean velocity gives it back. -/
theorem C08_velocity_of_curl (s u : SArr 3 ι) (K : Fin 3 → ι → ℝ) (hu : Spec.Solenoidal K u) (h0 : Spec.ZeroMean K u) :
    velocityHat s (Spec.curl K u) (K_over_K2 K) = u := by
  funext i k
  by_cases hk : K2 K k = 0
  · have hk := (K2_eq_zero K k).1 hk
    rw [h0 k hk i, velocityHat_zero _ _ _ _ hk]
  · have hk' : (K2 K k : ℂ) ≠ 0 := by exact_mod_cast hk
    apply mul_left_cancel₀ hk'
    rw [velocityHat_mul, curl_curl, hu k, mul_zero, sub_zero]

/-- C08.  Without the zero-mean condition everything but the mean is recovered, and without solenoidality the result is
the solenoidal projection. -/
theorem C08_velocity_of_curl_general (s u : SArr 3 ι) (K : Fin 3 → ι → ℝ) (i : Fin 3) (k : ι) (hk : ∃ j, K j k ≠ 0) :
    velocityHat s (Spec.curl K u) (K_over_K2 K) i k = project u K (K_over_K2 K) i k := by
  have hk' : (K2 K k : ℂ) ≠ 0 := by
    obtain ⟨j, hj⟩ := hk
    exact fun h => hj ((K2_eq_zero K k).1 (by exact_mod_cast h) j)
  apply mul_left_cancel₀ hk'
  rw [velocityHat_mul, curl_curl, project, ← sum_KoK2 K k (Spec.at' u k)]
  have : (∑ j, (K_over_K2 K j k : ℂ) * u j k) = ∑ j, Spec.at' u k j * (K_over_K2 K j k : ℂ) :=
    Finset.sum_congr rfl fun j _ => mul_comm _ _
  rw [this]
  ring

/-- C08.  `get_divergence` of the VV solver reports the backward transform of zero, whatever the state: it cannot detect
a vorticity that is not divergence free. -/
theorem C08_get_divergence_blind (K : Fin 3 → ι → ℝ) (U W : SArr 3 ι) : divHatVV K U W = 0 := by
  funext k
  have h := dot_curl K W k
  simp only [Spec.dot, Spec.at', Fin.sum_univ_three] at h
  simp only [divHatVV, cross2_3d_eq, h, mul_zero, Pi.zero_apply]

/-- A nonzero example of the hypotheses: wavenumber (0,0,2), velocity (1,i,0). -/
example : let K : Fin 3 → Unit → ℝ := fun i _ => if i = 2 then 2 else 0
    let u : SArr 3 Unit := fun i _ => if i = 0 then 1 else if i = 1 then I else 0
    Spec.Solenoidal K u ∧ Spec.ZeroMean K u ∧ Spec.curl K u 0 () = 2 := by
  refine ⟨fun k => by simp [Spec.dot, Spec.at', Fin.sum_univ_three], fun k hk => ?_, ?_⟩
  · have := hk 2; simp at this
  · simp only [Spec.curl, Spec.cross, Fin.isValue, fin3_add.1, fin3_add.2.1]
    simp
    linear_combination (-2 : ℂ) * I_mul_I

/-! ## C10 -/

theorem dot_mask {d : ℕ} (mask : Option (ι → Bool)) (K : Fin d → ι → ℝ) (r : SArr d ι) (k : ι)
    (h : Spec.dot (Spec.at' K k) (Spec.at' r k) = 0) : Spec.dot (Spec.at' K k) (Spec.at' (maskNyquist mask r) k) = 0 := by
  rcases mask with _ | m
  · exact h
  · have e : Spec.at' (maskNyquist (some m) r) k = fun i => (if m k then 1 else 0 : ℂ) * Spec.at' r k i := by
      funext i; exact mul_comm _ _
    rw [e, dot_smul, h, mul_zero]

/-- C10.  The divergence of the VV right-hand side. -/
theorem C10_rhs_divergence (c : Ctx 3 ι X) (s : Scratch 3 ι X) (rhs w : SArr 3 ι) (k : ι) :
    Spec.dot (Spec.at' c.K k) (Spec.at' (rhsVV c s rhs w) k) =
      Spec.dot (Spec.at' c.K k) (Spec.at' c.Source k) -
      (c.nu * Spec.normSq (Spec.at' c.K k) : ℝ) * Spec.dot (Spec.at' c.K k) (Spec.at' w k) := by
  set r := maskNyquist c.mask (convVV s rhs w c.Tp c.K (K_over_K2 c.K)) with hr
  have h1 : Spec.at' (rhsVV c s rhs w) k = fun i =>
      (Spec.at' r k i - (c.nu * K2 c.K k : ℝ) * Spec.at' w k i) + Spec.at' c.Source k i := rfl
  have h2 : Spec.dot (Spec.at' c.K k) (Spec.at' r k) = 0 := by
    rw [hr]
    apply dot_mask
    simp only [convVV, cross2_3d_eq]
    exact dot_curl _ _ _
  rw [h1, dot_add, dot_sub, dot_smul, K2_eq]
  have h3 : Spec.dot (Spec.at' c.K k) (fun i => Spec.at' r k i) = 0 := h2
  rw [h3]
  ring

/-- C10.  With a divergence-free source a divergence-free vorticity stays divergence free, for every integrator and any
number of steps. -/
theorem C10_vorticity_solenoidal (c : Ctx 3 ι X) (s : Scratch 3 ι X) (hs : Spec.Solenoidal c.K c.Source)
    (est : SArr 3 ι → SArr 3 ι → SArr 3 ι → PyF) (fuel : ℕ) (m : Method) (ds : List ℝ) (tstep : ℕ) (rhs w : SArr 3 ι)
    (hw : Spec.Solenoidal c.K w) (c' : Closure (SArr 3 ι))
    (h : runSteps (rhsVV c s) est fuel m tstep ds (getintegrator rhs w) = some c') : Spec.Solenoidal c.K c'.u0 :=
  run_mem (rhsVV c s) (Spec.solenoidal c.K) (Spec.solenoidal c.K : Set (SArr 3 ι))
    (fun _ hu _ hw => (Spec.solenoidal c.K).add_mem hu hw)
    (fun r u hu k => by rw [C10_rhs_divergence, hs k, show Spec.dot (Spec.at' c.K k) (Spec.at' u k) = 0 from hu k]; simp)
    est fuel m ds tstep rhs w hw (fun _ => Or.inr hw) c' h

/-- C10.  The mean vorticity never changes without a mean source. -/
theorem C10_mean_vorticity (c : Ctx 3 ι X) (s : Scratch 3 ι X) (rhs w : SArr 3 ι) (k : ι) (hk : ∀ i, c.K i k = 0)
    (i : Fin 3) : rhsVV c s rhs w i k = c.Source i k := by
  have h2 : K2 c.K k = 0 := (K2_eq_zero _ _).2 hk
  have h3 : convVV s rhs w c.Tp c.K (K_over_K2 c.K) i k = 0 := by
    simp only [convVV, cross2_3d_eq]; simp [Spec.curl, Spec.cross, hk]
  have h4 : maskNyquist c.mask (convVV s rhs w c.Tp c.K (K_over_K2 c.K)) i k = 0 := by
    rcases c.mask with _ | m
    · exact h3
    · simp [maskNyquist, h3]
  simp [rhsVV, add_linear, h2, h4]

/-! ## C09 -/

/-- The curl as a linear map. -/
noncomputable def curlMap (K : Fin 3 → ι → ℝ) : SArr 3 ι →ₗ[ℝ] SArr 3 ι where
  toFun := Spec.curl K
  map_add' u v := by have := curl_linear K 1 1 u v; simpa using this
  map_smul' a u := by have := curl_linear K a 0 u 0; simpa using this

/-- C09.  The VV right-hand side of the curl is the curl of the NS (Vortex form) right-hand side, for every divergence-free
zero-mean velocity; the sources are related by the curl as well. -/
theorem C09_rhs_curl (c cv : Ctx 3 ι X) (s s' : Scratch 3 ι X) (hT : cv.Tp = c.Tp) (hK : cv.K = c.K) (hnu : cv.nu = c.nu)
    (hm : cv.mask = c.mask) (hS : cv.Source = Spec.curl c.K c.Source) (rhs rhs' u : SArr 3 ι)
    (hu : Spec.Solenoidal c.K u) (h0 : Spec.ZeroMean c.K u) :
    rhsVV cv s' rhs' (Spec.curl c.K u) = Spec.curl c.K (rhsNS c (fun r u => convVortex s r u c.Tp c.K) rhs u) := by
  have h1 : convVV s' rhs' (Spec.curl c.K u) c.Tp c.K (K_over_K2 c.K) = Spec.curl c.K (convVortex s rhs u c.Tp c.K) := by
    simp only [convVV, cross2_3d_eq, compute_velocity, C08_velocity_of_curl _ u c.K hu h0, convVortex_eq]
    congr 1
    simp only [Cross, cross1_3d_eq]
    rfl
  funext i k
  have h2 : maskNyquist c.mask (Spec.curl c.K (convVortex s rhs u c.Tp c.K)) i k =
      Spec.curl c.K (maskNyquist c.mask (convVortex s rhs u c.Tp c.K)) i k := by
    rcases c.mask with _ | m
    · rfl
    · simp only [maskNyquist, Spec.curl, Spec.cross]; ring
  simp only [rhsVV, add_linear, hT, hK, hnu, hm, hS, h1, h2, rhsNS, ComputeRHS, add_pressure_diffusion]
  simp only [Spec.curl, Spec.cross]
  ring

/-- C09.  Whole runs.  `W` is a space of divergence-free zero-mean velocities that the NS right-hand side does not leave
(the hypothesis on the mean of the convective term is discharged for discrete Fourier transforms in `C09_mean_zero`).  Then
after any number of steps of any fixed-step integrator the VV vorticity is the curl of the NS velocity, and the velocity
recovered by VV is the NS velocity. -/
theorem C09_same_flow (c cv : Ctx 3 ι X) (s s' : Scratch 3 ι X) (hT : cv.Tp = c.Tp) (hK : cv.K = c.K) (hnu : cv.nu = c.nu)
    (hm : cv.mask = c.mask) (hS : cv.Source = Spec.curl c.K c.Source) (W : Submodule ℝ (SArr 3 ι))
    (hsol : ∀ u ∈ W, Spec.Solenoidal c.K u) (hzero : ∀ u ∈ W, Spec.ZeroMean c.K u)
    (hinv : ∀ r, ∀ u ∈ W, rhsNS c (fun r u => convVortex s r u c.Tp c.K) r u ∈ W)
    (est est' : SArr 3 ι → SArr 3 ι → SArr 3 ι → PyF) (fuel : ℕ) (m : Method) (hmeth : m ≠ .BS5 true) (ds : List ℝ)
    (tstep : ℕ) (rhs rhs' u w0 : SArr 3 ι) (hu : u ∈ W) (r : Closure (SArr 3 ι))
    (h : runSteps (rhsNS c fun r u => convVortex s r u c.Tp c.K) est fuel m tstep ds (getintegrator rhs u) = some r) :
    ∃ r', runSteps (rhsVV cv s') est' fuel m tstep ds (getintegrator rhs' (Spec.curl c.K u)) = some r' ∧
      r'.u0 = Spec.curl c.K r.u0 ∧ velocityHat w0 r'.u0 (K_over_K2 cv.K) = r.u0 := by
  have H : Intertwines (curlMap c.K) (W : Set (SArr 3 ι)) W (rhsNS c fun r u => convVortex s r u c.Tp c.K) (rhsVV cv s') :=
    ⟨fun _ hu _ hw => W.add_mem hu hw, hinv, fun r r' u hu =>
      C09_rhs_curl c cv s s' hT hK hnu hm hS r r' u (hsol u hu) (hzero u hu)⟩
  obtain ⟨r', h1, h2⟩ := run_map H est est' m (fun h => absurd h hmeth) fuel ds tstep rhs u rhs' hu (fun _ => Or.inr hu) r h
  have hr : r.u0 ∈ W := run_mem _ W (W : Set (SArr 3 ι)) (fun _ hu _ hw => W.add_mem hu hw) hinv est fuel m ds tstep rhs u
    hu (fun _ => Or.inr hu) r h
  refine ⟨r', h1, h2, ?_⟩
  rw [h2, hK]
  exact C08_velocity_of_curl w0 r.u0 c.K (hsol _ hr) (hzero _ hr)

/-- C09.  The mean of the Lamb vector `u x curl u` computed on the grid vanishes for a divergence-free velocity whenever the
transforms satisfy the discrete Parseval identity between the velocity and its curl and the mean of a grid function is its
coefficient at the mode `k0`. -/
theorem C09_mean_zero [Fintype ι] [Fintype X] (c : Ctx 3 ι X) (s : Scratch 3 ι X) (rhs u : SArr 3 ι)
    (hu : Spec.Solenoidal c.K u) (k0 : ι) (a : ℝ) (w : ι → ℝ)
    (hmean : ∀ f : X → ℝ, c.Tp.forward f k0 = ((a * ∑ x, f x : ℝ) : ℂ))
    (hpars : ∀ i j, a * ∑ x, c.Tp.backward (u i) x * c.Tp.backward (Spec.curl c.K u j) x =
      ∑ k, w k * ((starRingEnd ℂ) (u i k) * Spec.curl c.K u j k).re) (i : Fin 3) :
    convVortex s rhs u c.Tp c.K i k0 = 0 := by
  rw [convVortex_eq]
  simp only [Spec.lamb, hmean, Spec.cross, Finset.sum_sub_distrib, mul_sub, hpars]
  rw [← Finset.sum_sub_distrib, Finset.sum_eq_zero fun k _ => ?_, ofReal_zero]
  rw [← mul_sub, ← sub_re]
  have hk := congrArg (starRingEnd ℂ) (hu k)
  obtain ⟨h1, h2, h3, h4, h5, h6⟩ := fin3_add
  simp only [Spec.dot, Spec.at', map_add, map_mul, conj_ofReal, map_zero, Fin.sum_univ_three] at hk
  have key : (starRingEnd ℂ) (u (i + 1) k) * Spec.curl c.K u (i + 2) k - (starRingEnd ℂ) (u (i + 2) k) * Spec.curl c.K u (i + 1) k =
      I * ((c.K i k * ∑ j, normSq (u j k) : ℝ) : ℂ) := by
    simp only [ofReal_mul, ofReal_add, normSq_eq_conj_mul_self, Fin.sum_univ_three]
    fin_cases i <;> simp only [Spec.curl, Spec.cross, Fin.zero_eta, Fin.mk_one, Fin.reduceFinMk, h1, h2, h3, h4, h5, h6]
    · linear_combination (-I * u 0 k) * hk
    · linear_combination (-I * u 1 k) * hk
    · linear_combination (-I * u 2 k) * hk
  rw [key, I_mul_re, ofReal_im, neg_zero, mul_zero]

end SpectralDNS.Periodic

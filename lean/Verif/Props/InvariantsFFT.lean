import Verif.Props.Invariants

/-!
# C81 for the solvers with the 3/2-rule: conserved quantities from conditions on the initial data only
-/

namespace SpectralDNS.Periodic

open Complex Spec Dealias

/-- The context of a periodic solver with `dealias='3/2-rule'` and `mask_nyquist=True` (solvers/NS.py:20-45, spectralinit.py; the same for
NS2D.py, MHD.py and Bq2D.py). -/
noncomputable def padCtx {n : ℕ} (N : Fin (n + 1) → ℕ) (L : Fin (n + 1) → ℝ) (nu : ℝ) (Source : SArr (n + 1) (RModes N)) :
    Ctx (n + 1) (RModes N) (Grid fun i => padded (N i)) :=
  ⟨rspace N fun i => padded (N i), scaledWaves N L, nu, some (nyquistMask N), Source⟩

theorem padCtx_leibniz {n : ℕ} (N : Fin (n + 1) → ℕ) (hN : ∀ i, 0 < N i) (L : Fin (n + 1) → ℝ) (nu : ℝ) (Source : SArr (n + 1) (RModes N)) :
    Leibniz (padCtx N L nu Source).Tp.backward (padCtx N L nu Source).K (Vanishes (padCtx N L nu Source).mask) :=
  leibniz_padded N hN L

theorem padCtx_adjoint {n : ℕ} (N : Fin (n + 1) → ℕ) (L : Fin (n + 1) → ℝ) (nu : ℝ) (Source : SArr (n + 1) (RModes N)) :
    Adjoint (rweight N) (1 / Fintype.card (Grid fun i => padded (N i))) (padCtx N L nu Source).Tp.forward (padCtx N L nu Source).Tp.backward :=
  dft_adjoint (kernel (waves N) _) (rweight N)

theorem padCtx_additive {n : ℕ} (N : Fin (n + 1) → ℕ) (L : Fin (n + 1) → ℝ) (nu : ℝ) (Source : SArr (n + 1) (RModes N)) :
    Additive (padCtx N L nu Source).Tp := dft_additive (kernel (waves N) _) (rweight N)

/-- C81.  NS with the 3/2-rule, any mesh, any box, any of the four forms of convection: every solution of the semi-discrete equations that
starts divergence free and without Nyquist modes satisfies the energy balance at all times. -/
theorem C81_energy_padded (N : Fin 3 → ℕ) (hN : ∀ i, 0 < N i) (L : Fin 3 → ℝ) (nu : ℝ) (Source : SArr 3 (RModes N))
    (hs : Solenoidal (scaledWaves N L) Source) (hsm : ∀ i, Unmasked N (Source i)) (s : Scratch 3 (RModes N) (Grid fun i => padded (N i)))
    (name : String) (conv) (hname : getConvection name = some conv) (rhs : SArr 3 (RModes N)) (U : ℝ → SArr 3 (RModes N))
    (hU : ∀ t i k, HasDerivAt (fun s => U s i k)
      (rhsNS (padCtx N L nu Source) (fun r u => conv s r u (padCtx N L nu Source).Tp (padCtx N L nu Source).K) rhs (U t) i k) t)
    (h0 : Solenoidal (scaledWaves N L) (U 0)) (hm : ∀ i, Unmasked N (U 0 i)) (t : ℝ) :
    HasDerivAt (fun s => energy (rweight N) (U s))
      (-nu * dissipation (rweight N) (scaledWaves N L) (U t) + power (rweight N) (U t) Source) t := by
  have hA := C81_solutions_admissible (padCtx N L nu Source) _ rhs hs hsm U hU h0 hm t
  exact C81_energy (padCtx N L nu Source) (padCtx_additive ..) s (rweight N) _ (padCtx_adjoint N L _ _) name conv hname
    (fun _ => padCtx_leibniz N hN L nu Source) rhs U t (hU t) hA.1 hA.2

theorem solenoidal_zero {n : ℕ} {ι : Type*} (K : Fin n → ι → ℝ) : Solenoidal K 0 := fun k => by simp [dot, at']

/-- C81.  Without viscosity and source: the energy is constant for every form, and with the Vortex form also the helicity. -/
theorem C81_ideal (N : Fin 3 → ℕ) (hN : ∀ i, 0 < N i) (L : Fin 3 → ℝ) (s : Scratch 3 (RModes N) (Grid fun i => padded (N i)))
    (name : String) (conv) (hname : getConvection name = some conv) (rhs : SArr 3 (RModes N)) (U : ℝ → SArr 3 (RModes N))
    (hU : ∀ t i k, HasDerivAt (fun s => U s i k)
      (rhsNS (padCtx N L 0 0) (fun r u => conv s r u (padCtx N L 0 0).Tp (padCtx N L 0 0).K) rhs (U t) i k) t)
    (h0 : Solenoidal (scaledWaves N L) (U 0)) (hm : ∀ i, Unmasked N (U 0 i)) (t : ℝ) :
    energy (rweight N) (U t) = energy (rweight N) (U 0) ∧
      (name = "Vortex" → helicity (rweight N) (scaledWaves N L) (U t) = helicity (rweight N) (scaledWaves N L) (U 0)) := by
  constructor
  · refine const_of_hasDeriv_zero (fun t => energy (rweight N) (U t)) (fun t => ?_) t
    refine (C81_energy_padded N hN L 0 0 (solenoidal_zero _) (fun _ _ _ => rfl) s name conv hname rhs U hU h0 hm t).congr_deriv ?_
    simp [power]
  · intro hv
    refine const_of_hasDeriv_zero (fun t => helicity (rweight N) (scaledWaves N L) (U t)) (fun t => ?_) t
    subst hv
    have hc : convVortex = conv := by
      have : getConvection "Vortex" = some (convVortex (ι := RModes N) (X := Grid fun i => padded (N i))) := by simp [getConvection]
      rw [this] at hname
      exact Option.some.inj hname
    subst hc
    have hA := C81_solutions_admissible (padCtx N L 0 0) _ rhs (solenoidal_zero _) (fun _ _ _ => rfl) U hU h0 hm t
    refine (C81_helicity (padCtx N L 0 0) s (rweight N) _ (padCtx_adjoint N L _ _) rhs U t (hU t) hA.2).congr_deriv ?_
    simp [power, padCtx]

/-- C81.  MHD without viscosity and resistivity, with the 3/2-rule: total energy and cross helicity are constant, and so is magnetic
helicity when the magnetic field has no mean. -/
theorem C81_mhd_ideal (N : Fin 3 → ℕ) (hN : ∀ i, 0 < N i) (L : Fin 3 → ℝ) (rhs : SArr 3 (RModes N) × SArr 3 (RModes N))
    (V : ℝ → SArr 3 (RModes N) × SArr 3 (RModes N))
    (hu : ∀ t i k, HasDerivAt (fun s => (V s).1 i k)
      ((rhsMHD (padCtx N L 0 0) 0 (fun _ ub => convMHD ub (padCtx N L 0 0).Tp (padCtx N L 0 0).K) rhs (V t)).1 i k) t)
    (hb : ∀ t i k, HasDerivAt (fun s => (V s).2 i k)
      ((rhsMHD (padCtx N L 0 0) 0 (fun _ ub => convMHD ub (padCtx N L 0 0).Tp (padCtx N L 0 0).K) rhs (V t)).2 i k) t)
    (h1 : Solenoidal (scaledWaves N L) (V 0).1) (h2 : Solenoidal (scaledWaves N L) (V 0).2)
    (hm1 : ∀ i, Unmasked N ((V 0).1 i)) (hm2 : ∀ i, Unmasked N ((V 0).2 i)) (t : ℝ) :
    energy (rweight N) (V t).1 + energy (rweight N) (V t).2 = energy (rweight N) (V 0).1 + energy (rweight N) (V 0).2 ∧
    crossHelicity (rweight N) (V t).1 (V t).2 = crossHelicity (rweight N) (V 0).1 (V 0).2 ∧
    (ZeroMean (scaledWaves N L) (V 0).2 →
      magneticHelicity (rweight N) (scaledWaves N L) (V t).2 = magneticHelicity (rweight N) (scaledWaves N L) (V 0).2) := by
  have hA := fun t => C81_mhd_solutions_admissible (padCtx N L 0 0) 0 rhs V hu hb h1 h2 hm1 hm2 t
  refine ⟨?_, ?_, fun hz => ?_⟩
  · refine const_of_hasDeriv_zero (fun t => energy (rweight N) (V t).1 + energy (rweight N) (V t).2) (fun t => ?_) t
    obtain ⟨⟨a1, a2, a3, a4⟩, _⟩ := hA t
    refine (C81_mhd_energy (padCtx N L 0 0) (padCtx_additive ..) 0 (rweight N) _ (padCtx_adjoint N L _ _) (padCtx_leibniz N hN L 0 0) rhs V t (hu t) (hb t)
      a1 a2 a3 a4).congr_deriv ?_
    simp [padCtx]
  · refine const_of_hasDeriv_zero (fun t => crossHelicity (rweight N) (V t).1 (V t).2) (fun t => ?_) t
    obtain ⟨⟨a1, a2, a3, a4⟩, _⟩ := hA t
    refine (C81_cross_helicity (padCtx N L 0 0) (padCtx_additive ..) 0 (rweight N) _ (padCtx_adjoint N L _ _) (padCtx_leibniz N hN L 0 0) rhs V t (hu t) (hb t)
      a1 a2 a3 a4).congr_deriv ?_
    simp [padCtx]
  · refine const_of_hasDeriv_zero (fun t => magneticHelicity (rweight N) (scaledWaves N L) (V t).2) (fun t => ?_) t
    obtain ⟨⟨a1, a2, a3, a4⟩, a5⟩ := hA t
    refine (C81_magnetic_helicity (padCtx N L 0 0) (padCtx_additive ..) 0 (rweight N) _ (padCtx_adjoint N L _ _) rhs V t (hb t) a2
      (fun k hk i => by rw [a5 k hk i]; exact hz k hk i) a4).congr_deriv ?_
    simp

/-- C81.  NS2D with the 3/2-rule and no source: with `nu >= 0` energy and enstrophy never grow, with `nu = 0` both are constant. -/
theorem C81_two_dimensions (N : Fin 2 → ℕ) (hN : ∀ i, 0 < N i) (L : Fin 2 → ℝ) (nu : ℝ) (w0 : RModes N → ℂ) (rhs : SArr 2 (RModes N))
    (U : ℝ → SArr 2 (RModes N))
    (hU : ∀ t i k, HasDerivAt (fun s => U s i k)
      (rhsNS (padCtx N L nu 0) (fun r u => conv2DVortex w0 r u (padCtx N L nu 0).Tp (padCtx N L nu 0).K) rhs (U t) i k) t)
    (h0 : Solenoidal (scaledWaves N L) (U 0)) (hm : ∀ i, Unmasked N (U 0 i)) :
    (0 ≤ nu → Antitone (fun t => energy (rweight N) (U t)) ∧ Antitone fun t => variance (rweight N) (vorticity (scaledWaves N L) (U t))) ∧
    (nu = 0 → ∀ t, energy (rweight N) (U t) = energy (rweight N) (U 0) ∧
      variance (rweight N) (vorticity (scaledWaves N L) (U t)) = variance (rweight N) (vorticity (scaledWaves N L) (U 0))) := by
  have hA := fun t => C81_solutions_admissible (padCtx N L nu 0) _ rhs (solenoidal_zero _) (fun _ _ _ => rfl) U hU h0 hm t
  have hE : ∀ t, HasDerivAt (fun s => energy (rweight N) (U s)) (-nu * dissipation (rweight N) (scaledWaves N L) (U t)) t := fun t => by
    refine (energy_hasDeriv (rweight N) U _ t (hU t)).congr_deriv ?_
    rw [C07_energy_rate_2D (padCtx N L nu 0) w0 (rweight N) _ (padCtx_adjoint N L _ _) rhs (U t) (hA t).1 (Vanishes.mask (hA t).2)]
    simp [padCtx, power]
  have hZ : ∀ t, HasDerivAt (fun s => variance (rweight N) (vorticity (scaledWaves N L) (U s)))
      (-nu * gradSq (rweight N) (scaledWaves N L) (vorticity (scaledWaves N L) (U t))) t := fun t => by
    refine (C81_enstrophy (padCtx N L nu 0) (padCtx_additive ..) w0 (rweight N) _ (padCtx_adjoint N L _ _) (padCtx_leibniz N hN L nu 0) rhs U t (hU t)
      (hA t).1 (hA t).2).congr_deriv ?_
    simp [padCtx, Spec.inner, vorticity]
  have hw : ∀ k, 0 ≤ rweight N k := fun k => by unfold rweight; split <;> norm_num
  have hg : ∀ b : RModes N → ℂ, 0 ≤ gradSq (rweight N) (scaledWaves N L) b := fun b =>
    Finset.sum_nonneg fun j _ => Finset.sum_nonneg fun k _ => mul_nonneg (hw k) (by
      rw [mul_comm, mul_conj, ofReal_re]; exact Complex.normSq_nonneg _)
  refine ⟨fun hnu => ⟨?_, ?_⟩, fun hnu t => ⟨?_, ?_⟩⟩
  · refine antitone_of_deriv_nonpos (fun t => (hE t).differentiableAt) fun t => ?_
    rw [(hE t).deriv]
    have := mul_nonneg hnu (dissipation_nonneg (rweight N) hw (scaledWaves N L) (U t))
    linarith
  · refine antitone_of_deriv_nonpos (fun t => (hZ t).differentiableAt) fun t => ?_
    rw [(hZ t).deriv]
    have := mul_nonneg hnu (hg (vorticity (scaledWaves N L) (U t)))
    linarith
  · exact const_of_hasDeriv_zero _ (fun t => (hE t).congr_deriv (by rw [hnu]; simp)) t
  · exact const_of_hasDeriv_zero _ (fun t => (hZ t).congr_deriv (by rw [hnu]; simp)) t

/-- C81.  Bq2D with the 3/2-rule: from divergence-free initial velocity without Nyquist modes, kinetic energy changes by dissipation and
the work of buoyancy only, and the variance of the density by diffusion only. -/
theorem C81_boussinesq_padded (N : Fin 2 → ℕ) (hN : ∀ i, 0 < N i) (L : Fin 2 → ℝ) (nu Ri Pr : ℝ) (w0 : SArr 2 (RModes N))
    (rhs : SArr 2 (RModes N) × (RModes N → ℂ)) (V : ℝ → SArr 2 (RModes N) × (RModes N → ℂ))
    (hU : ∀ t i k, HasDerivAt (fun s => (V s).1 i k)
      ((rhsBq (padCtx N L nu 0) Ri Pr (fun r ur => convBq w0 r ur (padCtx N L nu 0).Tp (padCtx N L nu 0).K) rhs (V t)).1 i k) t)
    (hR : ∀ t k, HasDerivAt (fun s => (V s).2 k)
      ((rhsBq (padCtx N L nu 0) Ri Pr (fun r ur => convBq w0 r ur (padCtx N L nu 0).Tp (padCtx N L nu 0).K) rhs (V t)).2 k) t)
    (h0 : Solenoidal (scaledWaves N L) (V 0).1) (hm : ∀ i, Unmasked N ((V 0).1 i)) (hmr : Unmasked N (V 0).2) (t : ℝ) :
    HasDerivAt (fun s => energy (rweight N) (V s).1)
      (-nu * dissipation (rweight N) (scaledWaves N L) (V t).1 - Ri * Spec.inner (rweight N) ((V t).1 1) (V t).2) t ∧
    HasDerivAt (fun s => variance (rweight N) (V s).2) (-(nu / Pr) * gradSq (rweight N) (scaledWaves N L) (V t).2) t := by
  have hsol : ∀ t, Solenoidal (scaledWaves N L) (V t).1 := fun t k => by
    refine heat_zero (nu * Spec.normSq (at' (scaledWaves N L) k)) (fun s => dot (at' (scaledWaves N L) k) (at' (V s).1 k)) (fun t => ?_) (h0 k) t
    exact (dot_hasDeriv (scaledWaves N L) (fun s => (V s).1) _ t k fun i => hU t i k).congr_deriv
      (C13_rhs_divergence (padCtx N L nu 0) Ri Pr _ rhs (V t) k)
  have hrho : ∀ t, Unmasked N (V t).2 := fun t k hk => by
    refine heat_zero (nu / Pr * Spec.normSq (at' (scaledWaves N L) k)) (fun s => (V s).2 k) (fun t => ?_) (hmr k hk) t
    refine (hR t k).congr_deriv ?_
    rw [(C13_rhs (padCtx N L nu 0) Ri Pr w0 rhs (V t) k).2]
    simp [padCtx, keeps, hk]
  have hum : ∀ t i, Unmasked N ((V t).1 i) := fun t i k hk => by
    refine heat_zero (nu * Spec.normSq (at' (scaledWaves N L) k)) (fun s => (V s).1 i k) (fun t => ?_) (hm i k hk) t
    refine (hU t i k).congr_deriv ?_
    rw [(C13_rhs (padCtx N L nu 0) Ri Pr w0 rhs (V t) k).1, leray_eq]
    simp [padCtx, keeps, hk, hrho t k hk]
  have h := C81_boussinesq (padCtx N L nu 0) (padCtx_additive ..) Ri Pr w0 (rweight N) _ (padCtx_adjoint N L _ _) rhs V t (hU t) (hR t) (hsol t)
    (hum t) (hrho t)
  exact ⟨h.1, h.2 (padCtx_leibniz N hN L nu 0)⟩

/-! ## The hypotheses are met -/

/-- MHD: any divergence-free field without Nyquist modes, taken as velocity and magnetic field at once, is a steady solution of the ideal
equations (the solver computes exactly zero), with cross helicity twice its energy. -/
example (N : Fin 3 → ℕ) (L : Fin 3 → ℝ) (u : SArr 3 (RModes N)) (rhs : SArr 3 (RModes N) × SArr 3 (RModes N)) :
    rhsMHD (padCtx N L 0 0) 0 (fun _ ub => convMHD ub (padCtx N L 0 0).Tp (padCtx N L 0 0).K) rhs (u, u) = 0 ∧
      crossHelicity (rweight N) u u = 2 * energy (rweight N) u := by
  constructor
  · have hc : convMHD (u, u) (padCtx N L 0 0).Tp (padCtx N L 0 0).K = (0, 0) := by
      rw [convMHD_eq _ (padCtx_additive N L 0 0)]
      refine Prod.ext (funext fun i => funext fun k => ?_) (funext fun i => funext fun k => ?_)
      · simp [stressDiv, (padCtx_additive N L 0 0).forward_zero]
      · simp only [Spec.induction]
        simp [mul_comm, (padCtx_additive N L 0 0).forward_zero]
    refine Prod.ext (funext fun i => funext fun k => ?_) (funext fun i => funext fun k => ?_) <;>
      simp only [rhsMHD, hc, add_pressure_diffusionMHD, maskNyquist_keeps, Pi.zero_apply, ite_self] <;> simp [padCtx]
  · simp only [crossHelicity, energy, Spec.inner, ← mul_assoc, Finset.mul_sum]
    refine Finset.sum_congr rfl fun i _ => Finset.sum_congr rfl fun k _ => ?_
    rw [mul_comm ((starRingEnd ℂ) (u i k)), mul_conj, ofReal_re]
    ring

theorem exp_decay (lam : ℝ) (z : ℂ) (t : ℝ) :
    HasDerivAt (fun s : ℝ => Complex.exp (-(lam : ℂ) * s) * z) (-(lam : ℂ) * (Complex.exp (-(lam : ℂ) * t) * z)) t := by
  have h1 : HasDerivAt (fun s : ℝ => -(lam : ℂ) * s) (-(lam : ℂ) * 1) t := (ofRealCLM.hasDerivAt (x := t)).const_mul (-(lam : ℂ))
  refine (h1.cexp.mul_const z).congr_deriv ?_
  ring

/-- NS, Standard form: every flow `u_2(x_0, x_1)` along the third direction decays by viscosity; the energy balance applies to it. -/
example (N : Fin 3 → ℕ) (hN : ∀ i, 0 < N i) (L : Fin 3 → ℝ) (f : RModes N → ℂ) (hf : ∀ k, waves N 2 k ≠ 0 → f k = 0) (hm : Unmasked N f) (nu : ℝ)
    (s : Scratch 3 (RModes N) (Grid fun i => padded (N i))) (rhs : SArr 3 (RModes N)) (t : ℝ) :
    let U : ℝ → SArr 3 (RModes N) := fun t => ![0, 0, fun k => Complex.exp (-(nu * K2 (scaledWaves N L) k : ℝ) * t) * f k]
    HasDerivAt (fun s => energy (rweight N) (U s)) (-nu * dissipation (rweight N) (scaledWaves N L) (U t)) t := by
  intro U
  have hK : ∀ k, f k = 0 ∨ scaledWaves N L 2 k = 0 := fun k => by
    by_cases h : waves N 2 k = 0
    · exact Or.inr (by simp [scaledWaves, h])
    · exact Or.inl (hf k h)
  have hH := padCtx_additive N L nu 0
  have hz : (padCtx N L nu 0).Tp.backward 0 = 0 := hH.backward_zero
  have hf0 : (padCtx N L nu 0).Tp.forward (fun _ => 0) = fun _ => 0 := hH.forward_zero
  have hconv : ∀ t, convStandard s rhs (U t) (padCtx N L nu 0).Tp (padCtx N L nu 0).K = 0 := fun t => by
    funext i k
    rw [convStandard_eq, advection]
    have h0 : (fun x => ∑ j, (padCtx N L nu 0).Tp.backward (U t j) x * (padCtx N L nu 0).Tp.backward
        (fun k => I * (padCtx N L nu 0).K j k * U t i k) x) = fun _ => 0 := by
      funext x
      have h2 : (fun k => I * ((padCtx N L nu 0).K 2 k : ℂ) * U t i k) = 0 := by
        funext k
        rcases hK k with h | h
        · fin_cases i <;> simp [U, h]
        · simp [padCtx, h]
      rw [Fin.sum_univ_three, h2, hz]
      simp [U, hz]
    rw [h0, hf0]
    simp
  have hU : ∀ t i k, HasDerivAt (fun s => U s i k) (rhsNS (padCtx N L nu 0)
      (fun r u => convStandard s r u (padCtx N L nu 0).Tp (padCtx N L nu 0).K) rhs (U t) i k) t := by
    intro t i k
    have e : rhsNS (padCtx N L nu 0) (fun r u => convStandard s r u (padCtx N L nu 0).Tp (padCtx N L nu 0).K) rhs (U t) i k =
        -((nu * K2 (scaledWaves N L) k : ℝ) : ℂ) * U t i k := by
      simp only [rhsNS, ComputeRHS, add_pressure_diffusion, hconv, maskNyquist_keeps, Pi.zero_apply, ite_self]
      simp [padCtx]
    rw [e]
    fin_cases i
    · simpa [U] using hasDerivAt_const t (0 : ℂ)
    · simpa [U] using hasDerivAt_const t (0 : ℂ)
    · exact exp_decay (nu * K2 (scaledWaves N L) k) (f k) t
  have h := C81_energy_padded N hN L nu 0 (solenoidal_zero _) (fun _ _ _ => rfl) s "Standard" convStandard (by simp [getConvection]) rhs U hU
    (fun k => by rcases hK k with h | h <;> simp [dot, at', U, Fin.sum_univ_three, h]) (fun i k hk => by fin_cases i <;> simp [U, hm k hk]) t
  simpa [power] using h

/-- NS2D: every shear flow `u_0(x_1)` decays by viscosity; the enstrophy law applies to it. -/
example (N : Fin 2 → ℕ) (hN : ∀ i, 0 < N i) (L : Fin 2 → ℝ) (hL : ∀ i, L i ≠ 0) (f : RModes N → ℂ) (hf : ∀ k, waves N 0 k ≠ 0 → f k = 0)
    (hm : Unmasked N f) (nu : ℝ) (hnu : 0 ≤ nu) (rhs : SArr 2 (RModes N)) :
    let U : ℝ → SArr 2 (RModes N) := fun t => ![fun k => Complex.exp (-(nu * K2 (scaledWaves N L) k : ℝ) * t) * f k, 0]
    Antitone fun t => variance (rweight N) (vorticity (scaledWaves N L) (U t)) := by
  intro U
  have hK : ∀ k, f k = 0 ∨ scaledWaves N L 0 k = 0 := fun k => by
    by_cases h : waves N 0 k = 0
    · exact Or.inr (by simp [scaledWaves, h])
    · exact Or.inl (hf k h)
  have hH := padCtx_additive N L nu 0
  have hz : (padCtx N L nu 0).Tp.backward 0 = 0 := hH.backward_zero
  have hV := verticalOnly_fft N (fun i => padded (N i)) hN (fun i => by have := hN i; unfold padded; omega) L hL
  have hum : ∀ t, Unmasked N (U t 0) := fun t k hk => by simp [U, hm k hk]
  have hG : ∀ t, lamb2 (padCtx N L nu 0).Tp.forward (padCtx N L nu 0).Tp.backward (padCtx N L nu 0).K (U t) 0 = 0 ∧
      ∀ k, (scaledWaves N L 0 k ≠ 0 ∨ scaledWaves N L 1 k = 0) →
        lamb2 (padCtx N L nu 0).Tp.forward (padCtx N L nu 0).Tp.backward (padCtx N L nu 0).K (U t) 1 k = 0 := by
    intro t
    constructor
    · have : U t 1 = 0 := rfl
      simp only [lamb2, Matrix.cons_val_zero, this, hz]
      simp only [Pi.zero_apply, zero_mul]
      exact hH.forward_zero
    · intro k hk
      set om : RModes N → ℂ := fun k => I * ((padCtx N L nu 0).K 0 k * U t 1 k - (padCtx N L nu 0).K 1 k * U t 0 k) with hom
      have ho : om = fun k => -Spec.deriv (scaledWaves N L) 1 (U t 0) k := by
        funext k
        have : U t 1 k = 0 := rfl
        simp only [hom, this, Spec.deriv, padCtx]
        ring
      have hneg : (fun x => -((padCtx N L nu 0).Tp.backward (U t 0) x * (padCtx N L nu 0).Tp.backward om x)) = fun x =>
          (padCtx N L nu 0).Tp.backward (U t 0) x * (padCtx N L nu 0).Tp.backward (Spec.deriv (scaledWaves N L) 1 (U t 0)) x := by
        funext x
        rw [ho, hH.backward_neg]
        ring
      show (padCtx N L nu 0).Tp.forward (fun x => -((padCtx N L nu 0).Tp.backward (U t 0) x * (padCtx N L nu 0).Tp.backward om x)) k = 0
      rw [hneg]
      have hU0 : ∀ k, scaledWaves N L 0 k ≠ 0 → U t 0 k = 0 := fun k hk => by simp [U, (hK k).resolve_right hk]
      by_cases hk0 : scaledWaves N L 0 k = 0
      · have hk1 : scaledWaves N L 1 k = 0 := hk.resolve_left (by simp [hk0])
        have hw : ∀ i, waves N i k = 0 := fun i => by
          have h : scaledWaves N L i k = 0 := by fin_cases i <;> assumption
          simpa [scaledWaves, hL i, Real.pi_ne_zero] using h
        have hR : ∀ z : ℂ, ((starRingEnd ℂ) z * (padCtx N L nu 0).Tp.forward (fun x => (padCtx N L nu 0).Tp.backward (U t 0) x *
            (padCtx N L nu 0).Tp.backward (Spec.deriv (scaledWaves N L) 1 (U t 0)) x) k).re = 0 := fun z => by
          let e : RModes N → ℂ := fun l => if l = k then z else 0
          have hem : Unmasked N e := fun l hl => by
            have : l ≠ k := fun h => by
              rw [h, nyquistMask, decide_eq_false_iff_not] at hl
              exact hl fun i => by have := hN i; rw [hw i]; constructor <;> omega
            simp [e, this]
          have hed : Spec.deriv (scaledWaves N L) 1 e = 0 := by
            funext l
            by_cases h : l = k
            · simp [Spec.deriv, h, hk1]
            · simp [Spec.deriv, e, h]
          have h1 := padCtx_leibniz N hN L nu 0 1 (U t 0) (U t 0) e (hum t) (hum t) hem
          have h2 := padCtx_adjoint N L nu 0 e (fun x => (padCtx N L nu 0).Tp.backward (U t 0) x *
            (padCtx N L nu 0).Tp.backward (Spec.deriv (scaledWaves N L) 1 (U t 0)) x)
          rw [show Spec.deriv (padCtx N L nu 0).K 1 e = 0 from hed, hz] at h1
          rw [Finset.sum_eq_single k (fun l _ hl => by simp [e, hl]) (by simp)] at h2
          have h3 : ∑ x, (padCtx N L nu 0).Tp.backward e x * ((padCtx N L nu 0).Tp.backward (U t 0) x *
            (padCtx N L nu 0).Tp.backward (Spec.deriv (scaledWaves N L) 1 (U t 0)) x) = 0 := by
            have : 2 * ∑ x, (padCtx N L nu 0).Tp.backward e x * ((padCtx N L nu 0).Tp.backward (U t 0) x *
              (padCtx N L nu 0).Tp.backward (Spec.deriv (scaledWaves N L) 1 (U t 0)) x) = 0 := by
              rw [← h1, Finset.mul_sum]
              refine Finset.sum_congr rfl fun x _ => ?_
              rw [show (padCtx N L nu 0).K = scaledWaves N L from rfl]
              simp only [Pi.zero_apply]
              ring
            linarith
          rw [h3, mul_zero] at h2
          have hwk : rweight N k ≠ 0 := by unfold rweight; split <;> norm_num
          simpa [e, hwk] using h2
        have h1 := hR 1
        have h2 := hR I
        simp only [map_one, one_mul] at h1
        refine Complex.ext h1 ?_
        simpa using h2
      · refine hV.forward _ (hV.mul _ (hV.backward _ hU0) _ (hV.backward _ fun k hk => ?_)) k hk0
        rw [Spec.deriv, hU0 k hk, mul_zero]
  have hU : ∀ t i k, HasDerivAt (fun s => U s i k) (rhsNS (padCtx N L nu 0)
      (fun r u => conv2DVortex 0 r u (padCtx N L nu 0).Tp (padCtx N L nu 0).K) rhs (U t) i k) t := by
    intro t i k
    have e : rhsNS (padCtx N L nu 0) (fun r u => conv2DVortex 0 r u (padCtx N L nu 0).Tp (padCtx N L nu 0).K) rhs (U t) i k =
        -((nu * K2 (scaledWaves N L) k : ℝ) : ℂ) * U t i k := by
      have h0 := congrFun (hG t).1 k
      have h1 := (hG t).2 k
      simp only [rhsNS, ComputeRHS, add_pressure_diffusion, conv2D_lamb2, maskNyquist_keeps]
      generalize lamb2 (padCtx N L nu 0).Tp.forward (padCtx N L nu 0).Tp.backward (padCtx N L nu 0).K (U t) = G at h0 h1 ⊢
      have hs : ∀ F : Fin (1 + 1) → ℂ, ∑ j, F j = F 0 + F 1 := fun F => Fin.sum_univ_two F
      simp only [hs, h0, Pi.zero_apply, ite_self, zero_mul, zero_add]
      generalize keeps (padCtx N L nu 0).mask k = b
      simp only [padCtx, Pi.zero_apply, add_zero]
      by_cases hk : scaledWaves N L 0 k ≠ 0 ∨ scaledWaves N L 1 k = 0
      · rw [h1 hk]
        fin_cases i <;> simp [h0, h1 hk]
      · push Not at hk
        have hq : (K_over_K2 (scaledWaves N L) 1 k : ℂ) * scaledWaves N L 1 k = 1 := by
          have h2 : K2 (scaledWaves N L) k = scaledWaves N L 1 k * scaledWaves N L 1 k := by simp [K2, Fin.sum_univ_two, hk.1]
          have hne : K2 (scaledWaves N L) k ≠ 0 := by rw [h2]; exact mul_ne_zero hk.2 hk.2
          rw [K_over_K2, if_neg hne, h2, ← ofReal_mul]
          norm_cast
          have := hk.2
          field_simp
        fin_cases i
        · simp [h0, hk.1]
        · simp only [Fin.mk_one, mul_assoc, hq]
          ring
    rw [e]
    fin_cases i
    · exact exp_decay (nu * K2 (scaledWaves N L) k) (f k) t
    · simpa [U] using hasDerivAt_const t (0 : ℂ)
  exact ((C81_two_dimensions N hN L nu 0 rhs U hU (fun k => by
    rcases hK k with h | h <;> simp [dot, at', U, Fin.sum_univ_two, h]) (fun i k hk => by fin_cases i <;> simp [U, hm k hk])).1 hnu).2

end SpectralDNS.Periodic

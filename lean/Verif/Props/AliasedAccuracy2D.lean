import Verif.Lemmas.GridError2D
import Verif.Props.AliasedAccuracy

/-!
# C120 in two dimensions: NS2D without dealiasing converges to the solution of the Navier-Stokes equations

`dealias = 'None'` in NS2D: the product of velocity and vorticity is formed on the grid of the mesh itself and is aliased.  With viscosity the computed flow
still converges to smooth solutions, faster than every power of the mesh size.
-/

namespace SpectralDNS.Torus

open Complex Spec Periodic Dealias MeasureTheory
open scoped ContDiff

variable {L : Fin 2 → ℝ}

/-- Without dealiasing the vortex form does no work either: solutions from admissible coefficients of a real field stay such. -/
theorem ns2d_grid_stays (N : Fin 2 → ℕ) (hL : ∀ i, 0 < L i) (nu : ℝ) (hnu : 0 ≤ nu) (Source : SArr 2 (RModes N))
    (hs : Solenoidal (scaledWaves N L) Source) (hsm : ∀ i, Unmasked N (Source i)) (hSr : ∀ i, IsReal N (Source i))
    (w0 : RModes N → ℂ) (rhs : SArr 2 (RModes N)) {T : ℝ} (U : ℝ → SArr 2 (RModes N))
    (hU : SolvesOn (rhsNS (gridCtx N L nu Source) (fun r u => conv2DVortex w0 r u (gridCtx N L nu Source).Tp (gridCtx N L nu Source).K) rhs) T U)
    (h0 : Solenoidal (scaledWaves N L) (U 0)) (hm : ∀ i, Unmasked N (U 0 i)) (hr : ∀ i, IsReal N (U 0 i)) :
    ∀ t ∈ Set.Icc 0 T, Solenoidal (scaledWaves N L) (U t) ∧ (∀ i, Unmasked N (U t i)) ∧ ∀ i, IsReal N (U t i) := by
  set c := gridCtx N L nu Source with hc
  let C : SArr 2 (RModes N) → SArr 2 (RModes N) → SArr 2 (RModes N) := fun r u => conv2DVortex w0 r u c.Tp c.K
  have hR := grid_realModes N L hL nu Source
  have hq : IsQuad (rhsNS c C rhs) := rhsNS_quad c _ rhs fun i k => conv2D_quad (rspace_linear N _) c.K w0 rhs i k
  have hodd : ∀ u, HermOdd (NegMode N) c.K (C rhs u) := fun u k k' hk h i => by
    have e := conv2D_eq w0 rhs u c.Tp c.K
    fin_cases i
    · change conv2DVortex w0 rhs u c.Tp c.K 0 k' = (starRingEnd ℂ) (conv2DVortex w0 rhs u c.Tp c.K 0 k)
      rw [e.1]
      exact hR.forward _ k k' hk h
    · change conv2DVortex w0 rhs u c.Tp c.K 1 k' = (starRingEnd ℂ) (conv2DVortex w0 rhs u c.Tp c.K 1 k)
      rw [e.2]
      exact hR.forward _ k k' hk h
  have hwork : ∀ u, power (rweight N) u (C rhs u) = 0 := fun u => by
    have hadj := gridCtx_adjoint N L nu Source
    rw [← hc] at hadj
    have hs2 : ∀ F : Fin (1 + 1) → ℝ, ∑ j, F j = F 0 + F 1 := fun F => Fin.sum_univ_two F
    simp only [C, Spec.power, hs2, (conv2D_eq w0 rhs u c.Tp c.K).1, (conv2D_eq w0 rhs u c.Tp c.K).2]
    rw [hadj, hadj, ← mul_add, ← Finset.sum_add_distrib, Finset.sum_eq_zero fun x _ => ?_, mul_zero]
    ring
  have hpow : ∀ u, Solenoidal c.K u → (∀ i, Vanishes c.mask (u i)) → power (rweight N) u (rhsNS c C rhs u) =
      -c.nu * dissipation (rweight N) c.K u + power (rweight N) u c.Source := fun u h1 h2 =>
    power_rhs c (rweight N) _ rhs u h1 (Vanishes.mask h2) (hwork u)
  obtain ⟨V, hV0, hV, hVm⟩ := exists_solves_sub hq (admissible c.K c.mask ⊓ hermitian (NegMode N))
    (fun u hu => ⟨rhsNS_admissible c _ rhs hs hsm u hu.1,
      rhsNS_herm hR (fun m hm k k' hR => by obtain rfl := Option.some.inj hm; exact neg_mask N k k' hR) _ rhs u
        (hodd u) hu.2 (fun k k' h i => hSr i k k' h)⟩) (powerForm (rweight N))
    (fun u v => by rw [powerForm_apply, powerForm_apply, power_symm]) (fun u hu => by rw [powerForm_apply]; exact power_self_pos (rweight_pos N) u hu)
    le_rfl c.Source (fun u hu => by
      obtain ⟨h1, h2⟩ := mem_admissible.1 hu.1
      rw [powerForm_apply, powerForm_apply, powerForm_apply, hpow u h1 h2, zero_mul]
      have := mul_nonneg hnu (dissipation_nonneg (rweight N) (fun k => (rweight_pos N k).le) c.K u)
      have e : c.nu = nu := rfl
      rw [e]
      linarith) (U 0) ⟨mem_admissible.2 ⟨h0, hm⟩, fun k k' h i => hr i k k' h⟩
  intro t ht
  rw [solves_unique hq hV T U hU hV0.symm t ht]
  obtain ⟨h1, h2⟩ := hVm t
  exact ⟨(mem_admissible.1 h1).1, (mem_admissible.1 h1).2, fun i k k' h => h2 k k' h i⟩

/-- Error of the truncated series of a smooth solenoidal field. -/
theorem proj_start2 (hL : ∀ i, 0 < L i) {g : Fin 2 → (Fin 2 → ℝ) → ℝ} (hg : ∀ i, ContDiff ℝ ∞ (g i)) (hp : ∀ i, BoxPeriodic L (g i))
    (hd : ∀ x, ∑ i, pderiv i (g i) x = 0) (r : ℕ) : ∃ C, 0 ≤ C ∧ ∀ (N : Fin 2 → ℕ), (∀ i, 0 < N i) → ∀ K : ℝ, 0 ≤ K → (∀ i, K ≤ Real.pi * N i / L i) →
      Solenoidal (scaledWaves N L) (fun i => proj N L (g i)) ∧ (∀ i, Unmasked N (proj N L (g i))) ∧ (∀ i, IsReal N (proj N L (g i))) ∧
        boxMean L (fun x => ∑ i, (g i x - fn N L (proj N L (g i)) x) ^ 2) ≤ C / (1 + K ^ 2) ^ r := by
  obtain ⟨C1, hC1, c1⟩ := exists_common (P := fun (i : Fin 2) B => ∀ m, (1 + ∑ j, (kappa L m j) ^ 2) ^ (1 + 1 + r) * ‖coef L (g i) m‖ ≤ B)
    (fun i a b hab H m => (H m).trans hab) fun i => by
      obtain ⟨B, h0, h1⟩ := coef_decay hL (g := fun _ => g i) ((hg i).comp contDiff_snd) (fun _ => hp i) (1 + 1 + r) 0
      exact ⟨B, h0, h1 0 ⟨le_rfl, le_rfl⟩⟩
  refine ⟨2 * (C1 * ∑' m, majorant L m) ^ 2, by positivity, fun N hN K hK hKN => ?_⟩
  refine ⟨proj_solenoidal N L hL (fun i => (hg i).of_le (by exact_mod_cast le_top)) hp hd, fun i => proj_unmasked N L _,
    fun i => proj_real N L _, ?_⟩
  have hfn : ∀ a, Continuous (fn N L a) := fun a => trigField_continuous _ _ _
  rw [boxMean_sum L _ fun i => ((hg i).continuous.fun_sub (hfn _)).fun_pow 2]
  have h1 : (1 : ℝ) ≤ (1 + K ^ 2) ^ r := one_le_pow₀ (by nlinarith)
  refine (Finset.sum_le_sum (g := fun _ => (C1 * ∑' m, majorant L m) ^ 2 / (1 + K ^ 2) ^ r) fun i _ => ?_).trans_eq ?_
  · refine (proj_error N L hN hL (hg i).continuous (hp i) (c1 i) hK hKN).trans ?_
    have e : (C1 / (1 + K ^ 2) ^ r * ∑' m, majorant L m) ^ 2 = (C1 * ∑' m, majorant L m) ^ 2 / (1 + K ^ 2) ^ r / (1 + K ^ 2) ^ r := by
      field_simp
    rw [e]
    exact div_le_self (by positivity) h1
  · simp
    ring

/-! ## The semi-discrete equations -/

/-- C120, NS2D.  A smooth solution of the Navier-Stokes equations with positive viscosity and any power `r` are given.  There is one constant such that on every
mesh, from any start, the mean square error of the solution of the equations that the solver integrates without dealiasing is at most the constant times
(error of the start + error of the force + `(1 + K^2)^-r`), `K` being the smallest of the largest wavenumbers of the mesh. -/
theorem C120_ns2d (hL : ∀ i, 0 < L i) {nu T : ℝ} (hnu : 0 < nu) {f : Fin 2 → (Fin 2 → ℝ) → ℝ} {u : ℝ → Fin 2 → (Fin 2 → ℝ) → ℝ}
    {p : ℝ → (Fin 2 → ℝ) → ℝ} (h : ClassicalNS L nu T f u p) (r : ℕ) :
    ∃ C, 0 ≤ C ∧ ∀ (N : Fin 2 → ℕ), (∀ i, 0 < N i) → ∀ K : ℝ, 0 ≤ K → (∀ i, K ≤ Real.pi * N i / L i) →
      ∀ (Source : SArr 2 (RModes N)), Solenoidal (scaledWaves N L) Source → (∀ i, Unmasked N (Source i)) → (∀ i, IsReal N (Source i)) →
      ∀ (w0 : RModes N → ℂ),
      ∀ (rhs : SArr 2 (RModes N)) (U : ℝ → SArr 2 (RModes N)),
        SolvesOn (rhsNS (gridCtx N L nu Source) (fun r u => conv2DVortex w0 r u (gridCtx N L nu Source).Tp (gridCtx N L nu Source).K) rhs) T U →
        Solenoidal (scaledWaves N L) (U 0) → (∀ i, Unmasked N (U 0 i)) → (∀ i, IsReal N (U 0 i)) →
      ∀ t ∈ Set.Icc 0 T, boxMean L (fun x => ∑ i, (u t i x - fn N L (U t i) x) ^ 2) ≤
        C * (boxMean L (fun x => ∑ i, (u 0 i x - fn N L (U 0 i) x) ^ 2) + boxMean L (fun x => ∑ i, (f i x - fn N L (Source i) x) ^ 2) +
          1 / (1 + K ^ 2) ^ r) := by
  obtain ⟨α, β, hα, hβ, Hw⟩ := alias_work2 hL (T := T) hnu h.smooth h.periodic r
  obtain ⟨C, hC, H⟩ := galerkin_defect hL h r hα hβ
  refine ⟨C, hC, fun N hN K hK hKN Source hs hsm hSr w0 rhs U hU h0 hm hr => ?_⟩
  have hst := ns2d_grid_stays N hL nu hnu.le Source hs hsm hSr w0 rhs U hU h0 hm hr
  refine H N hN K hK hKN Source U (fun t => rhsNS (gridCtx N L nu Source) (fun r u => conv2DVortex w0 r u (gridCtx N L nu Source).Tp (gridCtx N L nu Source).K) rhs (U t))
    (fun t ht i k => hasDerivWithinAt_pi.1 (hasDerivWithinAt_pi.1 (hU t ht) i) k) hst fun t ht E hE hEm hEr => ?_
  obtain ⟨P, -, h3⟩ := C83_two_dimensions N L hN hL nu Source hsm w0 rhs (U t) (hst t ht).2.1
  refine ⟨P, ?_⟩
  have hEs : Solenoidal (scaledWaves N L) E := fun k => by
    have h1 := proj_solenoidal N L hL (fun i => ((h.smooth i).space t).of_le (by exact_mod_cast le_top)) (h.periodic t) (h.divergence t ht) k
    have h2 := (hst t ht).1 k
    simp only [dot, at', hE, mul_sub, Finset.sum_sub_distrib] at h1 h2 ⊢
    rw [h1, h2, sub_zero]
  have hpp := power_rhs_test (padCtx N L nu Source) (rweight N) (fun r u => conv2DVortex w0 r u (padCtx N L nu Source).Tp (padCtx N L nu Source).K) rhs (U t) E hEs hEm
  have hpg := power_rhs_test (gridCtx N L nu Source) (rweight N) (fun r u => conv2DVortex w0 r u (gridCtx N L nu Source).Tp (gridCtx N L nu Source).K) rhs (U t) E hEs hEm
  rw [← h3 E hEm hEr, mean_power N L hN hL _ E (rhsNS_unmasked N L nu Source hsm _ rhs (U t) (hst t ht).2.1).1 hEm hEr, hpp, hpg]
  have hw := Hw N N (fun i => padded (N i)) hN (fun i => le_rfl) (fun i => by unfold padded; omega) K hK hKN t ht (U t) E hE hEm hEr w0 w0 rhs rhs
  refine le_trans (le_of_eq ?_) hw
  change _ - nu * dissipation2 (rweight N) (scaledWaves N L) E (U t) + power (rweight N) E Source -
    (_ - nu * dissipation2 (rweight N) (scaledWaves N L) E (U t) + power (rweight N) E Source) = _
  rw [add_sub_add_right_eq_sub, sub_sub_sub_cancel_right]
  rfl

/-! ## The computed states -/

/-- C120, NS2D.  The states computed with the fourth order Runge-Kutta integrator: on each mesh a further error of the order of the eighth power (of the mean
square) of the largest time step. -/
theorem C120_ns2d_rk4 (hL : ∀ i, 0 < L i) {nu T : ℝ} (hnu : 0 < nu) (hT : 0 ≤ T) {f : Fin 2 → (Fin 2 → ℝ) → ℝ} {u : ℝ → Fin 2 → (Fin 2 → ℝ) → ℝ}
    {p : ℝ → (Fin 2 → ℝ) → ℝ} (h : ClassicalNS L nu T f u p) (r : ℕ) :
    ∃ C, 0 ≤ C ∧ ∀ (N : Fin 2 → ℕ), (∀ i, 0 < N i) → ∀ K : ℝ, 0 ≤ K → (∀ i, K ≤ Real.pi * N i / L i) →
      ∀ (Source : SArr 2 (RModes N)), Solenoidal (scaledWaves N L) Source → (∀ i, Unmasked N (Source i)) → (∀ i, IsReal N (Source i)) →
      ∀ (w0 : RModes N → ℂ),
      ∀ (u0 : SArr 2 (RModes N)), Solenoidal (scaledWaves N L) u0 → (∀ i, Unmasked N (u0 i)) → (∀ i, IsReal N (u0 i)) →
      ∀ est : SArr 2 (RModes N) → SArr 2 (RModes N) → SArr 2 (RModes N) → PyF,
      let F := rhsNS (gridCtx N L nu Source) fun r u => conv2DVortex w0 r u (gridCtx N L nu Source).Tp (gridCtx N L nu Source).K
      ∃ m, Method.ofName "RK4" = some m ∧ ∃ C' H0 : ℝ, 0 < H0 ∧
      ∀ H, 0 ≤ H → H ≤ H0 → ∀ ds : List ℝ, (∀ d ∈ ds, 0 ≤ d ∧ d ≤ H) → ds.sum ≤ T → ∀ (fuel : ℕ) (rhs : SArr 2 (RModes N)),
        ∃ outs, runOutputs F est (fuel + 1) m 0 ds (getintegrator rhs u0) = some outs ∧ (outs.map fun o => o.2.2) = ds ∧
          FollowsFlow L (fun V i => fn N L (V i)) u (C * (boxMean L (fun x => ∑ i, (u 0 i x - fn N L (u0 i) x) ^ 2) +
            boxMean L (fun x => ∑ i, (f i x - fn N L (Source i) x) ^ 2) + 1 / (1 + K ^ 2) ^ r) + C' * H ^ 8) 0 outs := by
  obtain ⟨C, hC, H⟩ := C120_ns2d hL hnu h r
  refine ⟨2 * C, by positivity, ?_⟩
  intro N hN K hK hKN Source hs hsm hSr w0 u0 h0 hm hr est F
  obtain ⟨U, hU0, hU, -, -, -⟩ := C92_ns2d (gridCtx N L nu Source) (rspace_linear N _) w0 (rweight N) (rweight_pos N) _ (gridCtx_adjoint N L nu Source)
    hnu.le hs hsm 0 u0 h0 hm
  have hrk := (C93_periodic.2.1 (gridCtx N L nu Source) (rspace_linear N _) w0 0).fixed est T hT U (hU.on T) "RK4" 4 (by simp)
  rw [hU0] at hrk
  obtain ⟨m, hm', C1, H0, hH0, hrun⟩ := hrk
  refine ⟨m, hm', 2 * ((1 + 1 : ℕ) : ℝ) * ((Fintype.card (RModes N) : ℝ) * (2 * C1)) ^ 2, H0, hH0, fun dt hdt hdt0 ds hds hsum fuel rhs => ?_⟩
  obtain ⟨outs, h1, h2, h3⟩ := hrun dt hdt hdt0 ds hds hsum fuel rhs
  refine ⟨outs, h1, h2, ?_⟩
  have hb := H N hN K hK hKN Source hs hsm hSr w0 0 U (hU.on T) (hU0 ▸ h0) (hU0 ▸ hm) (hU0 ▸ hr)
  rw [hU0] at hb
  have := follows_of_within N hL (fun t i => ((h.smooth i).space t).continuous) hb outs 0 le_rfl (fun o ho => (hds _ (by
    rw [← h2]
    exact List.mem_map.2 ⟨o, ho, rfl⟩)).1) (by rw [h2]; simpa using hsum) h3
  convert this using 1
  ring

/-- C120, NS2D.  Convergence: for every tolerance, on every sufficiently fine mesh, with a sufficiently accurate start and force and sufficiently small steps,
all computed velocities are within the tolerance of the solution of the Navier-Stokes equations in the mean square. -/
theorem C120_ns2d_converges (hL : ∀ i, 0 < L i) {nu T : ℝ} (hnu : 0 < nu) (hT : 0 ≤ T) {f : Fin 2 → (Fin 2 → ℝ) → ℝ} {u : ℝ → Fin 2 → (Fin 2 → ℝ) → ℝ}
    {p : ℝ → (Fin 2 → ℝ) → ℝ} (h : ClassicalNS L nu T f u p) (ε : ℝ) (hε : 0 < ε) :
    ∃ δ : ℝ, 0 < δ ∧ ∃ M : ℕ, ∀ (N : Fin 2 → ℕ), (∀ i, 0 < N i ∧ M ≤ N i) →
      ∀ (Source : SArr 2 (RModes N)), Solenoidal (scaledWaves N L) Source → (∀ i, Unmasked N (Source i)) → (∀ i, IsReal N (Source i)) →
      boxMean L (fun x => ∑ i, (f i x - fn N L (Source i) x) ^ 2) ≤ δ →
      ∀ (w0 : RModes N → ℂ),
      ∀ (u0 : SArr 2 (RModes N)), Solenoidal (scaledWaves N L) u0 → (∀ i, Unmasked N (u0 i)) → (∀ i, IsReal N (u0 i)) →
      boxMean L (fun x => ∑ i, (u 0 i x - fn N L (u0 i) x) ^ 2) ≤ δ →
      ∀ est : SArr 2 (RModes N) → SArr 2 (RModes N) → SArr 2 (RModes N) → PyF,
      let F := rhsNS (gridCtx N L nu Source) fun r u => conv2DVortex w0 r u (gridCtx N L nu Source).Tp (gridCtx N L nu Source).K
      ∃ m, Method.ofName "RK4" = some m ∧ ∃ H0 : ℝ, 0 < H0 ∧
      ∀ ds : List ℝ, (∀ d ∈ ds, 0 ≤ d ∧ d ≤ H0) → ds.sum ≤ T → ∀ (fuel : ℕ) (rhs : SArr 2 (RModes N)),
        ∃ outs, runOutputs F est (fuel + 1) m 0 ds (getintegrator rhs u0) = some outs ∧ (outs.map fun o => o.2.2) = ds ∧
          FollowsFlow L (fun V i => fn N L (V i)) u ε 0 outs := by
  obtain ⟨C, hC, H⟩ := C120_ns2d_rk4 hL hnu hT h 1
  obtain ⟨δ, hδ⟩ : ∃ δ, δ = ε / (6 * (C + 1)) := ⟨_, rfl⟩
  have hδ0 : 0 < δ := by rw [hδ]; positivity
  have hCδ : C * (δ + δ + δ) ≤ ε / 2 := by
    have : (C + 1) * (6 * δ) = ε := by rw [hδ]; field_simp
    nlinarith
  obtain ⟨M, hM⟩ := exists_nat_ge ((∑ i, L i) / (δ * Real.pi))
  refine ⟨δ, hδ0, M, ?_⟩
  intro N hN Source hs hsm hSr hf w0 u0 h0 hm hr hi est F
  have hpi := Real.pi_pos
  obtain ⟨m, hm', C', H0, hH0, hrun⟩ := H N (fun i => (hN i).1) (1 / δ) (by positivity) (fun i => by
    have h1 : L i ≤ ∑ i, L i := Finset.single_le_sum (fun i _ => (hL i).le) (Finset.mem_univ i)
    have h2 : (∑ i, L i) / (δ * Real.pi) ≤ N i := hM.trans (by exact_mod_cast (hN i).2)
    rw [div_le_iff₀ (by positivity)] at h2
    rw [div_le_div_iff₀ hδ0 (hL i)]
    linarith) Source hs hsm hSr w0 u0 h0 hm hr est
  have hk : 1 / (1 + (1 / δ) ^ 2) ^ 1 ≤ δ := by
    rw [pow_one, div_le_iff₀ (by positivity)]
    have : δ * (1 + (1 / δ) ^ 2) = δ + 1 / δ := by field_simp
    rw [this]
    have h2 : δ * (1 / δ) = 1 := by field_simp
    nlinarith [sq_nonneg (δ - 1 / δ), (by positivity : 0 < 1 / δ)]
  have hA : 0 < |C'| + 1 := by positivity
  refine ⟨m, hm', min H0 (min 1 (ε / (2 * (|C'| + 1)))), by positivity, fun ds hds hsum fuel rhs => ?_⟩
  obtain ⟨outs, h1, h2, h3⟩ := hrun _ (by positivity) (min_le_left _ _) ds hds hsum fuel rhs
  refine ⟨outs, h1, h2, follows_mono ?_ outs 0 h3⟩
  set η := min H0 (min 1 (ε / (2 * (|C'| + 1)))) with hη
  have e0 : 0 < η := by positivity
  have e1 : η ≤ 1 := (min_le_right _ _).trans (min_le_left _ _)
  have e2 : η ≤ ε / (2 * (|C'| + 1)) := (min_le_right _ _).trans (min_le_right _ _)
  have e3 : η ^ 8 ≤ η := pow_le_of_le_one e0.le e1 (by norm_num)
  have e4 : C' * η ^ 8 ≤ ε / 2 := by
    rw [le_div_iff₀ (by positivity)] at e2
    have a1 : C' * η ^ 8 ≤ |C'| * η ^ 8 := mul_le_mul_of_nonneg_right (le_abs_self _) (by positivity)
    have a2 : |C'| * η ^ 8 ≤ |C'| * η := mul_le_mul_of_nonneg_left e3 (abs_nonneg _)
    linarith
  have e5 := mul_le_mul_of_nonneg_left (add_le_add (add_le_add hi hf) hk) hC
  linarith

/-- C120, NS2D.  In particular for the truncated series of the start and of a smooth solenoidal force: on every sufficiently fine mesh the run follows the flow. -/
theorem C120_ns2d_computed (hL : ∀ i, 0 < L i) {nu T : ℝ} (hnu : 0 < nu) (hT : 0 ≤ T) {f : Fin 2 → (Fin 2 → ℝ) → ℝ} {u : ℝ → Fin 2 → (Fin 2 → ℝ) → ℝ}
    {p : ℝ → (Fin 2 → ℝ) → ℝ} (h : ClassicalNS L nu T f u p) (hf : ∀ i, ContDiff ℝ ∞ (f i)) (hfp : ∀ i, BoxPeriodic L (f i)) (hfd : ∀ x, ∑ i, pderiv i (f i) x = 0)
    (ε : ℝ) (hε : 0 < ε) :
    ∃ M : ℕ, ∀ (N : Fin 2 → ℕ), (∀ i, 0 < N i ∧ M ≤ N i) → ∀ (w0 : RModes N → ℂ), ∀ est : SArr 2 (RModes N) → SArr 2 (RModes N) → SArr 2 (RModes N) → PyF,
      let Source : SArr 2 (RModes N) := fun i => proj N L (f i)
      let u0 : SArr 2 (RModes N) := fun i => proj N L (u 0 i)
      let F := rhsNS (gridCtx N L nu Source) fun r u => conv2DVortex w0 r u (gridCtx N L nu Source).Tp (gridCtx N L nu Source).K
      ∃ m, Method.ofName "RK4" = some m ∧ ∃ H0 : ℝ, 0 < H0 ∧
      ∀ ds : List ℝ, (∀ d ∈ ds, 0 ≤ d ∧ d ≤ H0) → ds.sum ≤ T → ∀ (fuel : ℕ) (rhs : SArr 2 (RModes N)),
        ∃ outs, runOutputs F est (fuel + 1) m 0 ds (getintegrator rhs u0) = some outs ∧ (outs.map fun o => o.2.2) = ds ∧
          FollowsFlow L (fun V i => fn N L (V i)) u ε 0 outs := by
  obtain ⟨δ, hδ, M, H⟩ := C120_ns2d_converges hL hnu hT h ε hε
  obtain ⟨C1, hC1, H1⟩ := proj_start2 hL hf hfp hfd 1
  obtain ⟨C2, hC2, H2⟩ := proj_start2 hL (fun i => (h.smooth i).space 0) (h.periodic 0) (h.divergence 0 ⟨le_rfl, hT⟩) 1
  have hpi := Real.pi_pos
  obtain ⟨M', hM'⟩ := exists_nat_ge ((∑ i, L i) * ((C1 + C2) / δ) / Real.pi)
  refine ⟨max M M', fun N hN => ?_⟩
  obtain ⟨K, hK⟩ : ∃ K, K = (C1 + C2) / δ := ⟨_, rfl⟩
  have hK0 : 0 ≤ K := by rw [hK]; positivity
  have hKN : ∀ i, K ≤ Real.pi * N i / L i := fun i => by
    have h1 : L i ≤ ∑ i, L i := Finset.single_le_sum (fun i _ => (hL i).le) (Finset.mem_univ i)
    have h2 : (∑ i, L i) * K / Real.pi ≤ N i := by
      rw [hK]
      exact hM'.trans (by exact_mod_cast (le_max_right _ _).trans (hN i).2)
    rw [div_le_iff₀ hpi] at h2
    rw [le_div_iff₀ (hL i)]
    nlinarith
  have hb : ∀ C, 0 ≤ C → C ≤ C1 + C2 → C / (1 + K ^ 2) ^ 1 ≤ δ := fun C h0 hC => by
    have h1 : δ * K = C1 + C2 := by rw [hK]; field_simp
    rw [pow_one, div_le_iff₀ (by positivity)]
    nlinarith [sq_nonneg (K - 1), mul_nonneg hδ.le (sq_nonneg (K - 1)), mul_nonneg hδ.le hK0]
  obtain ⟨a1, a2, a3, a4⟩ := H1 N (fun i => (hN i).1) K hK0 hKN
  obtain ⟨b1, b2, b3, b4⟩ := H2 N (fun i => (hN i).1) K hK0 hKN
  exact fun w0 est => H N (fun i => ⟨(hN i).1, (le_max_left _ _).trans (hN i).2⟩) _ a1 a2 a3 (a4.trans (hb C1 hC1 (by linarith)))
    w0 _ b1 b2 b3 (b4.trans (hb C2 hC2 (by linarith))) est

/-! ## The hypotheses are met

A solution with convection and pressure is the Taylor-Green vortex of demo/TG2D.py; runs of NS2D without dealiasing from its truncated series follow it. -/

example (nu T ε : ℝ) (hnu : 0 < nu) (hT : 0 ≤ T) (hε : 0 < ε) : ∃ M : ℕ, ∀ N : Fin 2 → ℕ, (∀ i, 0 < N i ∧ M ≤ N i) → ∀ w0 est,
    ∃ m, Method.ofName "RK4" = some m ∧ ∃ H0 : ℝ, 0 < H0 ∧ ∀ ds : List ℝ, (∀ d ∈ ds, 0 ≤ d ∧ d ≤ H0) → ds.sum ≤ T → ∀ (fuel : ℕ) rhs, ∃ outs,
      runOutputs (rhsNS (gridCtx N (fun _ => 2 * Real.pi) nu fun _ => proj N (fun _ => 2 * Real.pi) 0)
        fun r u => conv2DVortex w0 r u (rspace N N) (scaledWaves N fun _ => 2 * Real.pi)) est (fuel + 1) m 0 ds
        (getintegrator rhs fun i => proj N (fun _ => 2 * Real.pi) ((![fun x => Real.exp (-2 * nu * 0) * (Real.sin (x 0) * Real.cos (x 1)),
          fun x => -Real.exp (-2 * nu * 0) * (Real.cos (x 0) * Real.sin (x 1))] : Fin 2 → (Fin 2 → ℝ) → ℝ) i)) = some outs ∧
      FollowsFlow (fun _ => 2 * Real.pi) (fun V i => fn N (fun _ => 2 * Real.pi) (V i)) (fun t => ![fun x => Real.exp (-2 * nu * t) * (Real.sin (x 0) * Real.cos (x 1)),
        fun x => -Real.exp (-2 * nu * t) * (Real.cos (x 0) * Real.sin (x 1))]) ε 0 outs := by
  obtain ⟨M, H⟩ := C120_ns2d_computed (fun _ => by positivity) hnu hT (tg2D_classical nu T) (fun i => contDiff_const) (fun i j x => rfl)
    (fun x => by simp [pderiv]) ε hε
  refine ⟨M, fun N hN w0 est => ?_⟩
  obtain ⟨m, hm, H0, hH0, hrun⟩ := H N hN w0 est
  refine ⟨m, hm, H0, hH0, fun ds hds hsum fuel rhs => ?_⟩
  obtain ⟨outs, h1, -, h3⟩ := hrun ds hds hsum fuel rhs
  exact ⟨outs, h1, h3⟩

end SpectralDNS.Torus

import Verif.Lemmas.GridError
import Verif.Props.SpectralAccuracy

/-!
# C120: the solver without dealiasing converges to the solution of the Navier-Stokes equations

NS with `dealias = 'None'` and the default vortex form of convection: products are formed on the grid of the mesh itself and are aliased.  With viscosity
the computed flow still converges to smooth solutions, faster than every power of the mesh size.
-/

namespace SpectralDNS.Torus

open Complex Spec Periodic Dealias MeasureTheory
open scoped ContDiff

/-- The context of a periodic solver with `dealias='None'` and `mask_nyquist=True` (solvers/NS.py:29-31 with `padding_factor` 1 and without
`dealias_direct`, so that the dealiased space is the space itself). -/
noncomputable def gridCtx {n : ℕ} (N : Fin (n + 1) → ℕ) (L : Fin (n + 1) → ℝ) (nu : ℝ) (Source : SArr (n + 1) (RModes N)) :
    Ctx (n + 1) (RModes N) (Grid N) :=
  ⟨rspace N N, scaledWaves N L, nu, some (nyquistMask N), Source⟩

theorem gridCtx_adjoint {n : ℕ} (N : Fin (n + 1) → ℕ) (L : Fin (n + 1) → ℝ) (nu : ℝ) (Source : SArr (n + 1) (RModes N)) :
    Adjoint (rweight N) (1 / Fintype.card (Grid N)) (gridCtx N L nu Source).Tp.forward (gridCtx N L nu Source).Tp.backward :=
  dft_adjoint (kernel (waves N) _) (rweight N)

theorem grid_realModes {n : ℕ} (N : Fin (n + 1) → ℕ) (L : Fin (n + 1) → ℝ) (hL : ∀ i, 0 < L i) (nu : ℝ) (S : SArr (n + 1) (RModes N)) :
    RealModes (NegMode N) (gridCtx N L nu S) :=
  ⟨fun f k k' h _ => rspace_forward_conj N _ f k k' h, fun k k' h i => Or.inl ((scaled_odd N L (fun i => (hL i).ne') k k').2 h i),
    fun k k' h => Or.inl ((scaled_odd N L (fun i => (hL i).ne') k k').2 h)⟩

variable {L : Fin 3 → ℝ}

/-- Without dealiasing the vortex form does no work either: solutions from admissible coefficients of a real field stay such. -/
theorem ns_grid_stays (N : Fin 3 → ℕ) (hL : ∀ i, 0 < L i) (nu : ℝ) (hnu : 0 ≤ nu) (Source : SArr 3 (RModes N))
    (hs : Solenoidal (scaledWaves N L) Source) (hsm : ∀ i, Unmasked N (Source i)) (hSr : ∀ i, IsReal N (Source i))
    (s : Scratch 3 (RModes N) (Grid N)) (conv) (hname : getConvection "Vortex" = some conv) (rhs : SArr 3 (RModes N)) {T : ℝ} (U : ℝ → SArr 3 (RModes N))
    (hU : SolvesOn (rhsNS (gridCtx N L nu Source) (fun r u => conv s r u (gridCtx N L nu Source).Tp (gridCtx N L nu Source).K) rhs) T U)
    (h0 : Solenoidal (scaledWaves N L) (U 0)) (hm : ∀ i, Unmasked N (U 0 i)) (hr : ∀ i, IsReal N (U 0 i)) :
    ∀ t ∈ Set.Icc 0 T, Solenoidal (scaledWaves N L) (U t) ∧ (∀ i, Unmasked N (U t i)) ∧ ∀ i, IsReal N (U t i) := by
  set c := gridCtx N L nu Source with hc
  let C : SArr 3 (RModes N) → SArr 3 (RModes N) → SArr 3 (RModes N) := fun r u => conv s r u c.Tp c.K
  have hR := grid_realModes N L hL nu Source
  have hq : IsQuad (rhsNS c C rhs) := rhsNS_quad c _ rhs fun i k => conv_quad (rspace_linear N _) c.K "Vortex" conv hname s rhs i k
  have hpow : ∀ u, Solenoidal c.K u → (∀ i, Vanishes c.mask (u i)) → power (rweight N) u (rhsNS c C rhs u) =
      -c.nu * dissipation (rweight N) c.K u + power (rweight N) u c.Source := fun u h1 h2 =>
    power_rhs c (rweight N) _ rhs u h1 (Vanishes.mask h2) (power_conv c.Tp (rspace_linear N _).additive c.K (rweight N) _ (gridCtx_adjoint N L nu Source)
      c.mask "Vortex" conv hname (fun h => absurd h (by decide)) s rhs u h1 h2)
  obtain ⟨V, hV0, hV, hVm⟩ := exists_solves_sub hq (admissible c.K c.mask ⊓ hermitian (NegMode N))
    (fun u hu => ⟨rhsNS_admissible c _ rhs hs hsm u hu.1,
      rhsNS_herm hR (fun m hm k k' hR => by obtain rfl := Option.some.inj hm; exact neg_mask N k k' hR) _ rhs u
        (conv_hermOdd (c := c) hR "Vortex" conv hname s rhs u) hu.2 (fun k k' h i => hSr i k k' h)⟩) (powerForm (rweight N))
    (fun u v => by rw [powerForm_apply, powerForm_apply, power_symm]) (fun u hu => by rw [powerForm_apply]; exact power_self_pos (rweight_pos N) u hu)
    le_rfl c.Source (fun u hu => by
      obtain ⟨h1, h2⟩ := mem_admissible.1 hu.1
      rw [powerForm_apply, powerForm_apply, powerForm_apply, hpow u h1 h2, zero_mul]
      have := mul_nonneg hnu (dissipation_nonneg (rweight N) (fun k => (rweight_pos N k).le) c.K u)
      have e : c.nu = nu := rfl
      rw [e]
      linarith) (U 0) ⟨mem_admissible.2 ⟨h0, hm⟩, fun k k' h i => hr i k k' h⟩
  intro t ht
  rw [solves_unique hq hV T U hU hV0.symm t ht]
  obtain ⟨h1, h2⟩ := hVm t
  exact ⟨(mem_admissible.1 h1).1, (mem_admissible.1 h1).2, fun i k k' h => h2 k k' h i⟩

/-! ## The semi-discrete equations -/

/-- C120.  A smooth solution of the Navier-Stokes equations with positive viscosity and any power `r` are given.  There is one constant such that on every
mesh, from any start, the mean square error of the solution of the equations that the solver integrates without dealiasing is at most the constant times
(error of the start + error of the force + `(1 + K^2)^-r`), `K` being the smallest of the largest wavenumbers of the mesh. -/
theorem C120_ns (hL : ∀ i, 0 < L i) {nu T : ℝ} (hnu : 0 < nu) {f : Fin 3 → (Fin 3 → ℝ) → ℝ} {u : ℝ → Fin 3 → (Fin 3 → ℝ) → ℝ}
    {p : ℝ → (Fin 3 → ℝ) → ℝ} (h : ClassicalNS L nu T f u p) (r : ℕ) :
    ∃ C, 0 ≤ C ∧ ∀ (N : Fin 3 → ℕ), (∀ i, 0 < N i) → ∀ K : ℝ, 0 ≤ K → (∀ i, K ≤ Real.pi * N i / L i) →
      ∀ (Source : SArr 3 (RModes N)), Solenoidal (scaledWaves N L) Source → (∀ i, Unmasked N (Source i)) → (∀ i, IsReal N (Source i)) →
      ∀ (s : Scratch 3 (RModes N) (Grid N)) (conv), getConvection "Vortex" = some conv →
      ∀ (rhs : SArr 3 (RModes N)) (U : ℝ → SArr 3 (RModes N)),
        SolvesOn (rhsNS (gridCtx N L nu Source) (fun r u => conv s r u (gridCtx N L nu Source).Tp (gridCtx N L nu Source).K) rhs) T U →
        Solenoidal (scaledWaves N L) (U 0) → (∀ i, Unmasked N (U 0 i)) → (∀ i, IsReal N (U 0 i)) →
      ∀ t ∈ Set.Icc 0 T, boxMean L (fun x => ∑ i, (u t i x - fn N L (U t i) x) ^ 2) ≤
        C * (boxMean L (fun x => ∑ i, (u 0 i x - fn N L (U 0 i) x) ^ 2) + boxMean L (fun x => ∑ i, (f i x - fn N L (Source i) x) ^ 2) +
          1 / (1 + K ^ 2) ^ r) := by
  obtain ⟨α, β, hα, hβ, Hw⟩ := alias_work hL (T := T) hnu h.smooth h.periodic r
  obtain ⟨C, hC, H⟩ := galerkin_defect hL h r hα hβ
  refine ⟨C, hC, fun N hN K hK hKN Source hs hsm hSr s conv hname rhs U hU h0 hm hr => ?_⟩
  have hst := ns_grid_stays N hL nu hnu.le Source hs hsm hSr s conv hname rhs U hU h0 hm hr
  refine H N hN K hK hKN Source U (fun t => rhsNS (gridCtx N L nu Source) (fun r u => conv s r u (gridCtx N L nu Source).Tp (gridCtx N L nu Source).K) rhs (U t))
    (fun t ht i k => hasDerivWithinAt_pi.1 (hasDerivWithinAt_pi.1 (hU t ht) i) k) hst fun t ht E hE hEm hEr => ?_
  obtain rfl : convVortex = conv := Option.some.inj hname
  let sp : Scratch 3 (RModes N) (Grid fun i => padded (N i)) := ⟨0, 0, 0⟩
  obtain ⟨P, -, -, h3⟩ := C83_momentum N L hN hL nu Source hsm "Vortex" convVortex rfl sp rhs (U t) (hst t ht).1 (hst t ht).2.1
  refine ⟨P, ?_⟩
  have hEs : Solenoidal (scaledWaves N L) E := fun k => by
    have h1 := proj_solenoidal N L hL (fun i => ((h.smooth i).space t).of_le (by exact_mod_cast le_top)) (h.periodic t) (h.divergence t ht) k
    have h2 := (hst t ht).1 k
    simp only [dot, at', hE, mul_sub, Finset.sum_sub_distrib] at h1 h2 ⊢
    rw [h1, h2, sub_zero]
  have hpp := power_rhs_test (padCtx N L nu Source) (rweight N) (fun r u => convVortex sp r u (padCtx N L nu Source).Tp (padCtx N L nu Source).K) rhs (U t) E hEs hEm
  have hpg := power_rhs_test (gridCtx N L nu Source) (rweight N) (fun r u => convVortex s r u (gridCtx N L nu Source).Tp (gridCtx N L nu Source).K) rhs (U t) E hEs hEm
  rw [← h3 E hEm hEr, mean_power N L hN hL _ E (rhsNS_unmasked N L nu Source hsm _ rhs (U t) (hst t ht).2.1).1 hEm hEr, hpp, hpg]
  have hw := Hw N N (fun i => padded (N i)) hN (fun i => le_rfl) (fun i => by unfold padded; omega) K hK hKN t ht (U t) E hE hEm hEr s sp rhs rhs
  refine le_trans (le_of_eq ?_) hw
  change _ - nu * dissipation2 (rweight N) (scaledWaves N L) E (U t) + power (rweight N) E Source -
    (_ - nu * dissipation2 (rweight N) (scaledWaves N L) E (U t) + power (rweight N) E Source) = _
  rw [add_sub_add_right_eq_sub, sub_sub_sub_cancel_right]
  rfl

/-! ## The computed states -/

/-- C120.  The states computed with the fourth order Runge-Kutta integrator: on each mesh a further error of the order of the eighth power (of the mean
square) of the largest time step. -/
theorem C120_ns_rk4 (hL : ∀ i, 0 < L i) {nu T : ℝ} (hnu : 0 < nu) (hT : 0 ≤ T) {f : Fin 3 → (Fin 3 → ℝ) → ℝ} {u : ℝ → Fin 3 → (Fin 3 → ℝ) → ℝ}
    {p : ℝ → (Fin 3 → ℝ) → ℝ} (h : ClassicalNS L nu T f u p) (r : ℕ) :
    ∃ C, 0 ≤ C ∧ ∀ (N : Fin 3 → ℕ), (∀ i, 0 < N i) → ∀ K : ℝ, 0 ≤ K → (∀ i, K ≤ Real.pi * N i / L i) →
      ∀ (Source : SArr 3 (RModes N)), Solenoidal (scaledWaves N L) Source → (∀ i, Unmasked N (Source i)) → (∀ i, IsReal N (Source i)) →
      ∀ (s : Scratch 3 (RModes N) (Grid N)) (conv), getConvection "Vortex" = some conv →
      ∀ (u0 : SArr 3 (RModes N)), Solenoidal (scaledWaves N L) u0 → (∀ i, Unmasked N (u0 i)) → (∀ i, IsReal N (u0 i)) →
      ∀ est : SArr 3 (RModes N) → SArr 3 (RModes N) → SArr 3 (RModes N) → PyF,
      let F := rhsNS (gridCtx N L nu Source) fun r u => conv s r u (gridCtx N L nu Source).Tp (gridCtx N L nu Source).K
      ∃ m, Method.ofName "RK4" = some m ∧ ∃ C' H0 : ℝ, 0 < H0 ∧
      ∀ H, 0 ≤ H → H ≤ H0 → ∀ ds : List ℝ, (∀ d ∈ ds, 0 ≤ d ∧ d ≤ H) → ds.sum ≤ T → ∀ (fuel : ℕ) (rhs : SArr 3 (RModes N)),
        ∃ outs, runOutputs F est (fuel + 1) m 0 ds (getintegrator rhs u0) = some outs ∧ (outs.map fun o => o.2.2) = ds ∧
          FollowsFlow L (fun V i => fn N L (V i)) u (C * (boxMean L (fun x => ∑ i, (u 0 i x - fn N L (u0 i) x) ^ 2) +
            boxMean L (fun x => ∑ i, (f i x - fn N L (Source i) x) ^ 2) + 1 / (1 + K ^ 2) ^ r) + C' * H ^ 8) 0 outs := by
  obtain ⟨C, hC, H⟩ := C120_ns hL hnu h r
  refine ⟨2 * C, by positivity, ?_⟩
  intro N hN K hK hKN Source hs hsm hSr s conv hname u0 h0 hm hr est F
  obtain ⟨U, hU0, hU, -, -, -⟩ := C92_ns (gridCtx N L nu Source) (rspace_linear N _) s (rweight N) (rweight_pos N) _ (gridCtx_adjoint N L nu Source) hnu.le hs hsm
    "Vortex" conv hname (fun h => absurd h (by decide)) 0 u0 h0 hm
  have hrk := (C93_periodic.1 (gridCtx N L nu Source) (rspace_linear N _) s "Vortex" conv hname 0).fixed est T hT U (hU.on T) "RK4" 4 (by simp)
  rw [hU0] at hrk
  obtain ⟨m, hm', C1, H0, hH0, hrun⟩ := hrk
  refine ⟨m, hm', 2 * ((2 + 1 : ℕ) : ℝ) * ((Fintype.card (RModes N) : ℝ) * (2 * C1)) ^ 2, H0, hH0, fun dt hdt hdt0 ds hds hsum fuel rhs => ?_⟩
  obtain ⟨outs, h1, h2, h3⟩ := hrun dt hdt hdt0 ds hds hsum fuel rhs
  refine ⟨outs, h1, h2, ?_⟩
  have hb := H N hN K hK hKN Source hs hsm hSr s conv hname 0 U (hU.on T) (hU0 ▸ h0) (hU0 ▸ hm) (hU0 ▸ hr)
  rw [hU0] at hb
  have := follows_of_within N hL (fun t i => ((h.smooth i).space t).continuous) hb outs 0 le_rfl (fun o ho => (hds _ (by
    rw [← h2]
    exact List.mem_map.2 ⟨o, ho, rfl⟩)).1) (by rw [h2]; simpa using hsum) h3
  convert this using 1
  ring

/-- C120.  Convergence: for every tolerance, on every sufficiently fine mesh, with a sufficiently accurate start and force and sufficiently small steps,
all computed velocities are within the tolerance of the solution of the Navier-Stokes equations in the mean square. -/
theorem C120_converges (hL : ∀ i, 0 < L i) {nu T : ℝ} (hnu : 0 < nu) (hT : 0 ≤ T) {f : Fin 3 → (Fin 3 → ℝ) → ℝ} {u : ℝ → Fin 3 → (Fin 3 → ℝ) → ℝ}
    {p : ℝ → (Fin 3 → ℝ) → ℝ} (h : ClassicalNS L nu T f u p) (ε : ℝ) (hε : 0 < ε) :
    ∃ δ : ℝ, 0 < δ ∧ ∃ M : ℕ, ∀ (N : Fin 3 → ℕ), (∀ i, 0 < N i ∧ M ≤ N i) →
      ∀ (Source : SArr 3 (RModes N)), Solenoidal (scaledWaves N L) Source → (∀ i, Unmasked N (Source i)) → (∀ i, IsReal N (Source i)) →
      boxMean L (fun x => ∑ i, (f i x - fn N L (Source i) x) ^ 2) ≤ δ →
      ∀ (s : Scratch 3 (RModes N) (Grid N)) (conv), getConvection "Vortex" = some conv →
      ∀ (u0 : SArr 3 (RModes N)), Solenoidal (scaledWaves N L) u0 → (∀ i, Unmasked N (u0 i)) → (∀ i, IsReal N (u0 i)) →
      boxMean L (fun x => ∑ i, (u 0 i x - fn N L (u0 i) x) ^ 2) ≤ δ →
      ∀ est : SArr 3 (RModes N) → SArr 3 (RModes N) → SArr 3 (RModes N) → PyF,
      let F := rhsNS (gridCtx N L nu Source) fun r u => conv s r u (gridCtx N L nu Source).Tp (gridCtx N L nu Source).K
      ∃ m, Method.ofName "RK4" = some m ∧ ∃ H0 : ℝ, 0 < H0 ∧
      ∀ ds : List ℝ, (∀ d ∈ ds, 0 ≤ d ∧ d ≤ H0) → ds.sum ≤ T → ∀ (fuel : ℕ) (rhs : SArr 3 (RModes N)),
        ∃ outs, runOutputs F est (fuel + 1) m 0 ds (getintegrator rhs u0) = some outs ∧ (outs.map fun o => o.2.2) = ds ∧
          FollowsFlow L (fun V i => fn N L (V i)) u ε 0 outs := by
  obtain ⟨C, hC, H⟩ := C120_ns_rk4 hL hnu hT h 1
  obtain ⟨δ, hδ⟩ : ∃ δ, δ = ε / (6 * (C + 1)) := ⟨_, rfl⟩
  have hδ0 : 0 < δ := by rw [hδ]; positivity
  have hCδ : C * (δ + δ + δ) ≤ ε / 2 := by
    have : (C + 1) * (6 * δ) = ε := by rw [hδ]; field_simp
    nlinarith
  obtain ⟨M, hM⟩ := exists_nat_ge ((∑ i, L i) / (δ * Real.pi))
  refine ⟨δ, hδ0, M, ?_⟩
  intro N hN Source hs hsm hSr hf s conv hname u0 h0 hm hr hi est F
  have hpi := Real.pi_pos
  obtain ⟨m, hm', C', H0, hH0, hrun⟩ := H N (fun i => (hN i).1) (1 / δ) (by positivity) (fun i => by
    have h1 : L i ≤ ∑ i, L i := Finset.single_le_sum (fun i _ => (hL i).le) (Finset.mem_univ i)
    have h2 : (∑ i, L i) / (δ * Real.pi) ≤ N i := hM.trans (by exact_mod_cast (hN i).2)
    rw [div_le_iff₀ (by positivity)] at h2
    rw [div_le_div_iff₀ hδ0 (hL i)]
    linarith) Source hs hsm hSr s conv hname u0 h0 hm hr est
  have hk : 1 / (1 + (1 / δ) ^ 2) ^ 1 ≤ δ := by
    rw [pow_one, div_le_iff₀ (by positivity)]
    have : δ * (1 + (1 / δ) ^ 2) = δ + 1 / δ := by field_simp
    rw [this]
    have h2 : δ * (1 / δ) = 1 := by field_simp
    nlinarith [sq_nonneg (δ - 1 / δ), (by positivity : 0 < 1 / δ)]
  have hA : 0 < |C'| + 1 := by positivity
  refine ⟨m, hm', min H0 (min 1 (ε / (2 * (|C'| + 1)))), by positivity, fun ds hds hsum fuel rhs => ?_⟩
  obtain ⟨outs, h1, h2, h3⟩ := hrun _ (by positivity) (min_le_left _ _) ds hds hsum fuel rhs
  refine ⟨outs, h1, h2, follows_mono ?_ outs 0 h3⟩
  set η := min H0 (min 1 (ε / (2 * (|C'| + 1)))) with hη
  have e0 : 0 < η := by positivity
  have e1 : η ≤ 1 := (min_le_right _ _).trans (min_le_left _ _)
  have e2 : η ≤ ε / (2 * (|C'| + 1)) := (min_le_right _ _).trans (min_le_right _ _)
  have e3 : η ^ 8 ≤ η := pow_le_of_le_one e0.le e1 (by norm_num)
  have e4 : C' * η ^ 8 ≤ ε / 2 := by
    rw [le_div_iff₀ (by positivity)] at e2
    have a1 : C' * η ^ 8 ≤ |C'| * η ^ 8 := mul_le_mul_of_nonneg_right (le_abs_self _) (by positivity)
    have a2 : |C'| * η ^ 8 ≤ |C'| * η := mul_le_mul_of_nonneg_left e3 (abs_nonneg _)
    linarith
  have e5 := mul_le_mul_of_nonneg_left (add_le_add (add_le_add hi hf) hk) hC
  linarith

/-- C120.  In particular for the truncated series of the start and of a smooth solenoidal force: on every sufficiently fine mesh the run follows the flow. -/
theorem C120_computed (hL : ∀ i, 0 < L i) {nu T : ℝ} (hnu : 0 < nu) (hT : 0 ≤ T) {f : Fin 3 → (Fin 3 → ℝ) → ℝ} {u : ℝ → Fin 3 → (Fin 3 → ℝ) → ℝ}
    {p : ℝ → (Fin 3 → ℝ) → ℝ} (h : ClassicalNS L nu T f u p) (hf : ∀ i, ContDiff ℝ ∞ (f i)) (hfp : ∀ i, BoxPeriodic L (f i)) (hfd : ∀ x, ∑ i, pderiv i (f i) x = 0)
    (ε : ℝ) (hε : 0 < ε) :
    ∃ M : ℕ, ∀ (N : Fin 3 → ℕ), (∀ i, 0 < N i ∧ M ≤ N i) → ∀ (s : Scratch 3 (RModes N) (Grid N)) (conv),
      getConvection "Vortex" = some conv → ∀ est : SArr 3 (RModes N) → SArr 3 (RModes N) → SArr 3 (RModes N) → PyF,
      let Source : SArr 3 (RModes N) := fun i => proj N L (f i)
      let u0 : SArr 3 (RModes N) := fun i => proj N L (u 0 i)
      let F := rhsNS (gridCtx N L nu Source) fun r u => conv s r u (gridCtx N L nu Source).Tp (gridCtx N L nu Source).K
      ∃ m, Method.ofName "RK4" = some m ∧ ∃ H0 : ℝ, 0 < H0 ∧
      ∀ ds : List ℝ, (∀ d ∈ ds, 0 ≤ d ∧ d ≤ H0) → ds.sum ≤ T → ∀ (fuel : ℕ) (rhs : SArr 3 (RModes N)),
        ∃ outs, runOutputs F est (fuel + 1) m 0 ds (getintegrator rhs u0) = some outs ∧ (outs.map fun o => o.2.2) = ds ∧
          FollowsFlow L (fun V i => fn N L (V i)) u ε 0 outs := by
  obtain ⟨δ, hδ, M, H⟩ := C120_converges hL hnu hT h ε hε
  obtain ⟨C1, hC1, H1⟩ := proj_start hL hf hfp hfd 1
  obtain ⟨C2, hC2, H2⟩ := proj_start hL (fun i => (h.smooth i).space 0) (h.periodic 0) (h.divergence 0 ⟨le_rfl, hT⟩) 1
  have hpi := Real.pi_pos
  obtain ⟨M', hM'⟩ := exists_nat_ge ((∑ i, L i) * ((C1 + C2) / δ) / Real.pi)
  refine ⟨max M M', fun N hN => ?_⟩
  obtain ⟨K, hK⟩ : ∃ K, K = (C1 + C2) / δ := ⟨_, rfl⟩
  have hK0 : 0 ≤ K := by rw [hK]; positivity
  have hKN : ∀ i, K ≤ Real.pi * N i / L i := fun i => by
    have h1 : L i ≤ ∑ i, L i := Finset.single_le_sum (fun i _ => (hL i).le) (Finset.mem_univ i)
    have h2 : (∑ i, L i) * K / Real.pi ≤ N i := by
      rw [hK]
      exact hM'.trans (by exact_mod_cast (le_max_right _ _).trans (hN i).2)
    rw [div_le_iff₀ hpi] at h2
    rw [le_div_iff₀ (hL i)]
    nlinarith
  have hb : ∀ C, 0 ≤ C → C ≤ C1 + C2 → C / (1 + K ^ 2) ^ 1 ≤ δ := fun C h0 hC => by
    have h1 : δ * K = C1 + C2 := by rw [hK]; field_simp
    rw [pow_one, div_le_iff₀ (by positivity)]
    nlinarith [sq_nonneg (K - 1), mul_nonneg hδ.le (sq_nonneg (K - 1)), mul_nonneg hδ.le hK0]
  obtain ⟨a1, a2, a3, a4⟩ := H1 N (fun i => (hN i).1) K hK0 hKN
  obtain ⟨b1, b2, b3, b4⟩ := H2 N (fun i => (hN i).1) K hK0 hKN
  exact fun s conv hname est => H N (fun i => ⟨(hN i).1, (le_max_left _ _).trans (hN i).2⟩) _ a1 a2 a3 (a4.trans (hb C1 hC1 (by linarith)))
    s conv hname _ b1 b2 b3 (b4.trans (hb C2 hC2 (by linarith))) est

/-! ## The hypotheses are met

A solution: the decaying shear flow `u_2 = exp(-nu t) cos(x_0)` of C109.  A start on every mesh: `C109_start`.  On four points per direction the products
that the vortex form forms are aliased: with `u_1 = cos(x_0)` and a scalar `cos(x_0)` the product has the mode 2, which this mesh does not carry. -/

example : getConvection (ι := RModes fun _ : Fin 3 => 4) (X := Grid fun _ : Fin 3 => 4) "Vortex" = some convVortex := rfl

end SpectralDNS.Torus

import Verif.Lemmas.Periodic

/-!
# C01–C04: pressure, projection and incompressibility in the periodic velocity solvers
-/

namespace SpectralDNS.Periodic

open Complex

variable {ι X : Type*} {d : ℕ}

/-! ## C01 -/

/-- C01.  The divergence of the right-hand side at every mode, for any convective term, any mask, any source. -/
theorem C01_rhs_divergence (c : Ctx d ι X) (conv : SArr d ι → SArr d ι → SArr d ι) (rhs u : SArr d ι) (k : ι) :
    Spec.dot (Spec.at' c.K k) (Spec.at' (rhsNS c conv rhs u) k) =
      Spec.dot (Spec.at' c.K k) (Spec.at' c.Source k)
        - (c.nu * Spec.normSq (Spec.at' c.K k) : ℝ) * Spec.dot (Spec.at' c.K k) (Spec.at' u k) := by
  set r := maskNyquist c.mask (conv rhs u) with hr
  have h1 : Spec.at' (rhsNS c conv rhs u) k = fun i =>
      (r i k - (∑ j, r j k * (K_over_K2 c.K j k : ℂ)) * c.K i k
        - (c.nu * K2 c.K k : ℝ) * u i k) + c.Source i k := rfl
  rw [h1, dot_add, dot_sub, dot_sub, dot_K_P, sum_KoK2 c.K k (fun i => r i k), dot_smul, K2_eq]
  have h2 : Spec.at' c.Source k = fun i => c.Source i k := rfl
  have h3 : Spec.at' u k = fun i => u i k := rfl
  rw [h2, h3]
  ring

/-- C01.  A divergence-free velocity with a divergence-free source gets a divergence-free right-hand side. -/
theorem C01_rhs_solenoidal (c : Ctx d ι X) (conv : SArr d ι → SArr d ι → SArr d ι) (rhs u : SArr d ι)
    (hu : Spec.Solenoidal c.K u) (hs : Spec.Solenoidal c.K c.Source) : Spec.Solenoidal c.K (rhsNS c conv rhs u) := by
  intro k
  rw [C01_rhs_divergence, hu k, hs k]
  simp

/-- C01.  At the mean mode the pressure and the viscosity do nothing: the right-hand side is the (masked) convection
plus the source. -/
theorem C01_mean_mode (c : Ctx d ι X) (conv : SArr d ι → SArr d ι → SArr d ι) (rhs u : SArr d ι) (k : ι)
    (hk : ∀ i, c.K i k = 0) (i : Fin d) (hm : ∀ m, c.mask = some m → m k = true) :
    rhsNS c conv rhs u i k = conv rhs u i k + c.Source i k := by
  have h2 : K2 c.K k = 0 := (K2_eq_zero _ _).2 hk
  have h3 : maskNyquist c.mask (conv rhs u) i k = conv rhs u i k := by
    rcases h : c.mask with _ | m
    · rfl
    · simp [maskNyquist, hm m h]
  simp [rhsNS, ComputeRHS, add_pressure_diffusion, hk i, h2, h3]

/-- A concrete instance: three modes in two dimensions with wavenumbers (0,0), (1,0), (1,2), a convective term with
divergence, a mask removing the last mode; the velocity (0,1),(0,1),(2,-1) is divergence free. -/
example : let K : Fin 2 → Fin 3 → ℝ := ![![0, 1, 1], ![0, 0, 2]]
    let u : SArr 2 (Fin 3) := ![![0, 0, 2], ![1, 1, -1]]
    let c : Ctx 2 (Fin 3) Unit := ⟨⟨fun _ _ => 0, fun _ _ => 0⟩, K, 1, some ![true, true, false], 0⟩
    Spec.Solenoidal K u ∧ ¬ Spec.Solenoidal K (fun _ _ => (1 : ℂ)) ∧
      Spec.Solenoidal K (rhsNS c (fun _ _ _ _ => 1) 0 u) := by
  intro K u c
  have hu : Spec.Solenoidal K u := by
    intro k
    fin_cases k <;> simp [K, u, Spec.dot, Spec.at', Fin.sum_univ_two]
  refine ⟨hu, fun h => ?_, C01_rhs_solenoidal c _ 0 u hu fun k => by simp [Spec.dot, Spec.at', c]⟩
  have := h 1
  simp [K, Spec.dot, Spec.at', Fin.sum_univ_two] at this

/-! ## C02 -/

/-- C02.  Every integrator, any number of steps of any sizes and (for the adaptive one) any error estimates, keeps a
divergence-free velocity divergence free.  `conv` is arbitrary, in particular any of the convection forms with any
dealiasing. -/
theorem C02_divergence_free_preserved (c : Ctx d ι X) (conv : SArr d ι → SArr d ι → SArr d ι)
    (hs : Spec.Solenoidal c.K c.Source) (est : SArr d ι → SArr d ι → SArr d ι → PyF) (fuel : ℕ) (m : Method) (ds : List ℝ)
    (tstep : ℕ) (rhs u : SArr d ι) (hu : Spec.Solenoidal c.K u) (c' : Closure (SArr d ι))
    (h : runSteps (rhsNS c conv) est fuel m tstep ds (getintegrator rhs u) = some c') : Spec.Solenoidal c.K c'.u0 :=
  run_mem (rhsNS c conv) (Spec.solenoidal c.K) (Spec.solenoidal c.K : Set (SArr d ι))
    (fun _ hu _ hw => (Spec.solenoidal c.K).add_mem hu hw)
    (fun r u hu => C01_rhs_solenoidal c conv r u hu hs) est fuel m ds tstep rhs u hu (fun _ => Or.inr hu) c' h

/-- The divergence (without the factor `i`) as a linear map. -/
noncomputable def divMap (K : Fin d → ι → ℝ) : SArr d ι →ₗ[ℝ] (ι → ℂ) where
  toFun u := fun k => Spec.dot (Spec.at' K k) (Spec.at' u k)
  map_add' u v := by funext k; exact dot_add _ _ _
  map_smul' c u := by
    funext k
    have h : Spec.at' (c • u) k = fun i => (c : ℂ) * Spec.at' u k i := by funext i; simp [Spec.at']
    simp only [h, dot_smul, RingHom.id_apply, Pi.smul_apply, real_smul]

/-- C02, data that are not divergence free: whatever the flow does, the divergence evolves as the solution of the heat
equation computed with the same integrator, the same steps and (when adaptive) the same step size decisions. -/
theorem C02_divergence_heat (c : Ctx d ι X) (conv : SArr d ι → SArr d ι → SArr d ι) (hs : Spec.Solenoidal c.K c.Source)
    (est : SArr d ι → SArr d ι → SArr d ι → PyF) (est' : (ι → ℂ) → (ι → ℂ) → (ι → ℂ) → PyF) (fuel : ℕ) (m : Method)
    (hm : m ≠ .BS5 true) (ds : List ℝ) (tstep : ℕ) (rhs u : SArr d ι) (rhs' : ι → ℂ) (r : Closure (SArr d ι))
    (h : runSteps (rhsNS c conv) est fuel m tstep ds (getintegrator rhs u) = some r) :
    ∃ r', runSteps (fun _ (q : ι → ℂ) k => -(c.nu * Spec.normSq (Spec.at' c.K k) : ℝ) * q k) est' fuel m tstep ds
        (getintegrator rhs' fun k => Spec.dot (Spec.at' c.K k) (Spec.at' u k)) = some r' ∧
      ∀ k, Spec.dot (Spec.at' c.K k) (Spec.at' r.u0 k) = r'.u0 k := by
  have H : Intertwines (divMap c.K) Set.univ ⊤ (rhsNS c conv)
      (fun _ (q : ι → ℂ) k => -(c.nu * Spec.normSq (Spec.at' c.K k) : ℝ) * q k) := by
    refine ⟨fun _ _ _ _ => trivial, fun _ _ _ => trivial, fun r r' u _ => ?_⟩
    funext k
    simp only [divMap, LinearMap.coe_mk, AddHom.coe_mk, C01_rhs_divergence, hs k]
    ring
  obtain ⟨r', h1, h2⟩ := run_map H est est' m (fun h => absurd h hm) fuel ds tstep rhs u rhs' trivial
    (fun _ => Or.inr trivial) r h
  exact ⟨r', h1, fun k => (congrFun h2 k).symm⟩

/-- The hypotheses are met by a run of three RK4 steps of different sizes from a divergence-free start. -/
example : let K : Fin 2 → Fin 2 → ℝ := ![![0, 1], ![0, 2]]
    let u : SArr 2 (Fin 2) := ![![3, 2], ![1, -1]]
    let c : Ctx 2 (Fin 2) Unit := ⟨⟨fun _ _ => 0, fun _ _ => 0⟩, K, 1, none, 0⟩
    ∃ c', runSteps (rhsNS c fun _ u i k => u i k * u 0 k) (fun _ _ _ => .fin 0) 1 .RK4 0 [0.1, 0.2, 0.1]
      (getintegrator 0 u) = some c' ∧ Spec.Solenoidal K c'.u0 := by
  intro K u c
  have hu : Spec.Solenoidal K u := by
    intro k
    fin_cases k <;> simp [K, u, Spec.dot, Spec.at', Fin.sum_univ_two]
  obtain ⟨c', hc'⟩ : ∃ c', runSteps (rhsNS c fun _ u i k => u i k * u 0 k) (fun _ _ _ => .fin 0) 1 .RK4 0 [0.1, 0.2, 0.1]
      (getintegrator 0 u) = some c' := ⟨_, rfl⟩
  exact ⟨c', hc', C02_divergence_free_preserved c _ (fun k => by simp [Spec.dot, Spec.at', c]) _ 1 .RK4 _ 0 _ u hu _ hc'⟩

/-! ## C03 -/

/-- C03.  The result of `project` is divergence free. -/
theorem C03_project_solenoidal (u : SArr d ι) (K : Fin d → ι → ℝ) : Spec.Solenoidal K (project u K (K_over_K2 K)) := by
  intro k
  have h1 : Spec.at' (project u K (K_over_K2 K)) k =
      fun i => Spec.at' u k i - (∑ j, u j k * (K_over_K2 K j k : ℂ)) * K i k := by
    funext i
    simp only [Spec.at', project]
    congr 2
    exact Finset.sum_congr rfl fun j _ => mul_comm _ _
  rw [h1, dot_sub, dot_K_P, sum_KoK2 K k (fun i => u i k)]
  exact sub_self _

/-- C03.  `project` changes the field along the wavenumber only. -/
theorem C03_project_along (u : SArr d ι) (K : Fin d → ι → ℝ) :
    ∃ q : ι → ℂ, ∀ i k, u i k - project u K (K_over_K2 K) i k = q k * K i k :=
  ⟨fun k => ∑ j, (K_over_K2 K j k : ℂ) * u j k, fun i k => by simp [project]⟩

/-- C03.  Divergence-free fields are left alone. -/
theorem C03_project_fixes (u : SArr d ι) (K : Fin d → ι → ℝ) (hu : Spec.Solenoidal K u) : project u K (K_over_K2 K) = u := by
  funext i k
  have h := hu k
  rw [← sum_KoK2 K k (Spec.at' u k)] at h
  have h2 : (∑ j, (K_over_K2 K j k : ℂ) * u j k) * (K i k : ℂ) = 0 := by
    rcases mul_eq_zero.1 h with h | h
    · rw [show (∑ j, (K_over_K2 K j k : ℂ) * u j k) = ∑ j, Spec.at' u k j * (K_over_K2 K j k : ℂ) from
        Finset.sum_congr rfl fun j _ => mul_comm _ _, h, zero_mul]
    · rw [(K2_eq_zero K k).1 (by exact_mod_cast h) i]; simp
  rw [project, h2, sub_zero]

/-- C03.  `project` is idempotent. -/
theorem C03_project_idempotent (u : SArr d ι) (K : Fin d → ι → ℝ) :
    project (project u K (K_over_K2 K)) K (K_over_K2 K) = project u K (K_over_K2 K) :=
  C03_project_fixes _ K (C03_project_solenoidal u K)

/-- C03.  The mean mode is untouched. -/
theorem C03_project_mean (u : SArr d ι) (K : Fin d → ι → ℝ) (k : ι) (hk : ∀ i, K i k = 0) (i : Fin d) :
    project u K (K_over_K2 K) i k = u i k := by simp [project, hk i]

/-- C03.  `project` is complex linear. -/
theorem C03_project_linear (a b : ℂ) (u v : SArr d ι) (K : Fin d → ι → ℝ) :
    project (fun i k => a * u i k + b * v i k) K (K_over_K2 K) =
      fun i k => a * project u K (K_over_K2 K) i k + b * project v K (K_over_K2 K) i k := by
  funext i k
  have h : (∑ j, (K_over_K2 K j k : ℂ) * (a * u j k + b * v j k)) =
      a * (∑ j, (K_over_K2 K j k : ℂ) * u j k) + b * (∑ j, (K_over_K2 K j k : ℂ) * v j k) := by
    rw [Finset.mul_sum, Finset.mul_sum, ← Finset.sum_add_distrib]
    exact Finset.sum_congr rfl fun j _ => by ring
  simp only [project, h]
  ring

/-- C03.  What `project` removes is orthogonal, mode by mode, to every divergence-free field. -/
theorem C03_project_orthogonal (u v : SArr d ι) (K : Fin d → ι → ℝ) (hv : Spec.Solenoidal K v) (k : ι) :
    ∑ i, (starRingEnd ℂ) (v i k) * (u i k - project u K (K_over_K2 K) i k) = 0 := by
  obtain ⟨q, hq⟩ := C03_project_along u K
  simp only [hq]
  have h := congrArg (starRingEnd ℂ) (hv k)
  simp only [Spec.dot, Spec.at', map_sum, map_mul, conj_ofReal, map_zero] at h
  rw [show (∑ i, (starRingEnd ℂ) (v i k) * (q k * (K i k : ℂ))) = q k * ∑ i, (K i k : ℂ) * (starRingEnd ℂ) (v i k) by
    rw [Finset.mul_sum]; exact Finset.sum_congr rfl fun i _ => by ring, h, mul_zero]

/-- C03.  `project` is self-adjoint, mode by mode. -/
theorem C03_project_selfadjoint (u v : SArr d ι) (K : Fin d → ι → ℝ) (k : ι) :
    ∑ i, (starRingEnd ℂ) (project v K (K_over_K2 K) i k) * u i k =
      ∑ i, (starRingEnd ℂ) (v i k) * project u K (K_over_K2 K) i k := by
  have h1 := C03_project_orthogonal u _ K (C03_project_solenoidal v K) k
  have h2 := congrArg (starRingEnd ℂ) (C03_project_orthogonal v _ K (C03_project_solenoidal u K) k)
  simp only [map_sum, map_mul, map_sub, map_zero, Complex.conj_conj, mul_sub, Finset.sum_sub_distrib] at h1 h2
  rw [sub_eq_zero] at h1 h2
  rw [h1]
  rw [show (∑ i, (starRingEnd ℂ) (v i k) * project u K (K_over_K2 K) i k) =
    ∑ i, project u K (K_over_K2 K) i k * (starRingEnd ℂ) (v i k) from Finset.sum_congr rfl fun i _ => mul_comm _ _, h2]
  exact Finset.sum_congr rfl fun i _ => mul_comm _ _

/-- C03.  Pythagoras: the energy of a mode is that of its projection plus that of the removed part, so `project` never
increases the modal energy. -/
theorem C03_project_energy (u : SArr d ι) (K : Fin d → ι → ℝ) (k : ι) :
    ∑ i, normSq (u i k) = ∑ i, normSq (project u K (K_over_K2 K) i k) +
      ∑ i, normSq (u i k - project u K (K_over_K2 K) i k) := by
  set p := project u K (K_over_K2 K) with hp
  have h := C03_project_orthogonal u _ K (C03_project_solenoidal u K) k
  rw [← hp] at h
  have h2 : ∑ i, ((starRingEnd ℂ) (p i k) * (u i k - p i k)).re = 0 := by
    rw [← re_sum, h]; rfl
  rw [← Finset.sum_add_distrib, ← sub_eq_zero, ← Finset.sum_sub_distrib]
  rw [show (0 : ℝ) = 2 * ∑ i, ((starRingEnd ℂ) (p i k) * (u i k - p i k)).re by rw [h2, mul_zero], Finset.mul_sum]
  refine Finset.sum_congr rfl fun i _ => ?_
  simp only [normSq_apply, mul_re, conj_re, conj_im, sub_re, sub_im]
  ring

theorem C03_project_energy_le (u : SArr d ι) (K : Fin d → ι → ℝ) (k : ι) :
    ∑ i, normSq (project u K (K_over_K2 K) i k) ≤ ∑ i, normSq (u i k) := by
  rw [C03_project_energy u K k]
  exact le_add_of_nonneg_right (Finset.sum_nonneg fun i _ => normSq_nonneg _)

/-- `project` does something: at wavenumber (1,1) the field (1,0) becomes (1/2,-1/2). -/
example : project (d := 2) (ι := Unit) (fun i _ => if i = 0 then 1 else 0) (fun _ _ => 1) (K_over_K2 fun _ _ => 1) 0 () = 1 / 2 := by
  norm_num [project, K_over_K2, K2, Fin.sum_univ_two]

/-! ## C04 -/

/-- C04.  The right-hand side is `conv - i k p - nu |k|^2 u + Source` (with `conv` masked when a mask is set), where `p` is
the field transformed by `get_pressure`; and `|k|^2 p = -i k . conv`. -/
theorem C04_pressure (c : Ctx d ι X) (conv : SArr d ι → SArr d ι → SArr d ι) (rhs u : SArr d ι) :
    let N := maskNyquist c.mask (conv rhs u)
    let p := pressureHat (ComputeRHS c conv rhs u).2
    (∀ i k, rhsNS c conv rhs u i k =
        N i k - I * c.K i k * p k - (c.nu * Spec.normSq (Spec.at' c.K k) : ℝ) * u i k + c.Source i k) ∧
    (∀ k, (Spec.normSq (Spec.at' c.K k) : ℂ) * p k = -I * Spec.dot (Spec.at' c.K k) (Spec.at' N k)) ∧
    (∀ k, (∀ i, c.K i k = 0) → p k = 0) := by
  intro N p
  refine ⟨fun i k => ?_, fun k => ?_, fun k hk => ?_⟩
  · simp only [rhsNS, ComputeRHS, add_pressure_diffusion, p, pressureHat, ← K2_eq, N]
    linear_combination (-(c.K i k : ℂ) * ∑ j, maskNyquist c.mask (conv rhs u) j k * (K_over_K2 c.K j k : ℂ)) * I_mul_I
  · rw [← K2_eq, ← sum_KoK2 c.K k (Spec.at' N k)]
    simp only [p, pressureHat, ComputeRHS, add_pressure_diffusion, Spec.at', N]
    ring
  · simp only [p, pressureHat, ComputeRHS, add_pressure_diffusion, KoK2_zero c.K k hk]
    simp

/-- C04.  The pressure is determined by the Poisson equation: any field `q` satisfying it, with zero mean, is `p`. -/
theorem C04_pressure_unique (c : Ctx d ι X) (conv : SArr d ι → SArr d ι → SArr d ι) (rhs u : SArr d ι) (q : ι → ℂ)
    (hq : ∀ k, (Spec.normSq (Spec.at' c.K k) : ℂ) * q k =
      -I * Spec.dot (Spec.at' c.K k) (Spec.at' (maskNyquist c.mask (conv rhs u)) k))
    (h0 : ∀ k, (∀ i, c.K i k = 0) → q k = 0) : q = pressureHat (ComputeRHS c conv rhs u).2 := by
  obtain ⟨-, hp, hp0⟩ := C04_pressure c conv rhs u
  funext k
  by_cases hk : ∀ i, c.K i k = 0
  · rw [h0 k hk, hp0 k hk]
  · have h2 : (Spec.normSq (Spec.at' c.K k) : ℂ) ≠ 0 := by
      rw [← K2_eq]
      exact fun h => hk ((K2_eq_zero c.K k).1 (by exact_mod_cast h))
    exact mul_left_cancel₀ h2 ((hq k).trans (hp k).symm)

/-- Concrete: at wavenumber 2 in one dimension a unit convective term gives the pressure -i/2. -/
example : pressureHat (ComputeRHS (d := 1) (ι := Unit) (X := Unit) ⟨⟨fun _ _ => 0, fun _ _ => 0⟩, fun _ _ => 2, 1, none, 0⟩
    (fun _ _ _ _ => 1) 0 0).2 () = -I / 2 := by
  norm_num [pressureHat, ComputeRHS, add_pressure_diffusion, maskNyquist, K_over_K2, K2]
  ring

end SpectralDNS.Periodic

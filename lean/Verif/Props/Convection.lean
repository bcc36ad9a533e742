import Verif.Lemmas.Convection
import Mathlib.Analysis.Complex.Basic
import Mathlib.Analysis.Calculus.Deriv.Mul
import Mathlib.Analysis.Calculus.Deriv.Pow
import Mathlib.Analysis.Calculus.Deriv.Add
import Mathlib.Analysis.Calculus.Deriv.Comp
import Mathlib.Analysis.Calculus.Deriv.MeanValue

/-!
# C05–C07: convective terms, mean momentum and energy
-/

namespace SpectralDNS.Periodic

open Complex

variable {ι X : Type*} {d : ℕ}

/-! ## C06 -/

/-- C06.  What each of the four names selects: the formula of the documentation, whatever the previous contents of the
output and work arrays; every other name is an error. -/
theorem C06_convection_forms (name : String) :
    match (getConvection name : Option (Scratch 3 ι X → SArr 3 ι → SArr 3 ι → Space ι X → (Fin 3 → ι → ℝ) → SArr 3 ι)) with
    | none => name ≠ "Standard" ∧ name ≠ "Divergence" ∧ name ≠ "Skewed" ∧ name ≠ "Vortex"
    | some conv => ∀ w rhs u T K i k,
        (name = "Standard" ∧ conv w rhs u T K i k = -Spec.advection T.forward T.backward K u i k) ∨
        (name = "Divergence" ∧ conv w rhs u T K i k = -Spec.divergenceForm T.forward T.backward K u i k) ∨
        (name = "Skewed" ∧ conv w rhs u T K i k =
          -(Spec.advection T.forward T.backward K u i k + Spec.divergenceForm T.forward T.backward K u i k) / 2) ∨
        (name = "Vortex" ∧ conv w rhs u T K i k = Spec.lamb T.forward T.backward K u i k) := by
  unfold getConvection
  by_cases h1 : name = "Standard"
  · simp only [h1, if_true]
    intro w rhs u T K i k
    exact Or.inl ⟨trivial, convStandard_eq ..⟩
  by_cases h2 : name = "Divergence"
  · simp only [h2, if_true, if_neg (by decide : ¬ ("Divergence" : String) = "Standard")]
    intro w rhs u T K i k
    exact Or.inr (Or.inl ⟨trivial, convDivergence_eq ..⟩)
  by_cases h3 : name = "Skewed"
  · simp only [h3, if_true, if_neg (by decide : ¬ ("Skewed" : String) = "Standard"),
      if_neg (by decide : ¬ ("Skewed" : String) = "Divergence")]
    intro w rhs u T K i k
    exact Or.inr (Or.inr (Or.inl ⟨trivial, convSkewed_eq ..⟩))
  by_cases h4 : name = "Vortex"
  · simp only [h4, if_true, if_neg (by decide : ¬ ("Vortex" : String) = "Standard"),
      if_neg (by decide : ¬ ("Vortex" : String) = "Divergence"), if_neg (by decide : ¬ ("Vortex" : String) = "Skewed")]
    intro w rhs u T K i k
    exact Or.inr (Or.inr (Or.inr ⟨trivial, by rw [convVortex_eq]⟩))
  · simp [h1, h2, h3, h4]

/-- C06.  The four names are accepted. -/
theorem C06_accepted (name : String) : ((getConvection name :
      Option (Scratch 3 ι X → SArr 3 ι → SArr 3 ι → Space ι X → (Fin 3 → ι → ℝ) → SArr 3 ι))).isSome ↔
    name ∈ ["Standard", "Divergence", "Skewed", "Vortex"] := by
  unfold getConvection
  by_cases h1 : name = "Standard"
  · simp [h1]
  by_cases h2 : name = "Divergence"
  · simp [h2]
  by_cases h3 : name = "Skewed"
  · simp [h3]
  by_cases h4 : name = "Vortex"
  · simp [h4]
  · simp [h1, h2, h3, h4]

/-- C06.  The solvers with one form (VV, NS2D, Bq2D: Vortex; MHD: Divergence) accept that name only; the other three names raise
`NotImplementedError`, anything else fails as well. -/
theorem C06_single_form {α : Type*} (name : String) (conv c : α) :
    (getConvectionVortexOnly name conv = .ok c ↔ name = "Vortex" ∧ c = conv) ∧
    (getConvectionVortexOnly name conv = .notImplemented ↔ name ∈ ["Standard", "Divergence", "Skewed"]) ∧
    (getConvectionDivergenceOnly name conv = .ok c ↔ name = "Divergence" ∧ c = conv) ∧
    (getConvectionDivergenceOnly name conv = .notImplemented ↔ name ∈ ["Standard", "Vortex", "Skewed"]) := by
  unfold getConvectionVortexOnly getConvectionDivergenceOnly
  by_cases h1 : name = "Standard"
  · simp [h1]
  by_cases h2 : name = "Divergence"
  · simp [h2, eq_comm]
  by_cases h3 : name = "Skewed"
  · simp [h3]
  by_cases h4 : name = "Vortex"
  · simp [h4, eq_comm]
  · simp [h1, h2, h3, h4]

/-- C06.  Skewed is the mean of Standard and Divergence. -/
theorem C06_skewed_mean (w w' w'' : Scratch 3 ι X) (rhs rhs' rhs'' u : SArr 3 ι) (T : Space ι X) (K : Fin 3 → ι → ℝ)
    (i : Fin 3) (k : ι) :
    convSkewed w rhs u T K i k = (convStandard w' rhs' u T K i k + convDivergence w'' rhs'' u T K i k) / 2 := by
  rw [convSkewed_eq, convStandard_eq, convDivergence_eq]
  ring

/-- The forms are really different: with identity-like transforms on one mode with wavenumber (1,0,0) and the velocity
(1,0,0) the divergence form is not zero. -/
example : convDivergence (ι := Unit) (X := Unit) ⟨0, 0, 0⟩ 0 (fun i _ => if i = 0 then 1 else 0)
    ⟨fun f _ => (f () : ℂ), fun a _ => (a ()).re⟩ (fun i _ => if i = 0 then 1 else 0) 0 () = -I := by
  rw [convDivergence_eq]
  simp [Spec.divergenceForm, Fin.sum_univ_three]

/-! ## C05 -/

/-- Fields vanishing at one mode. -/
def zeroAt (d : ℕ) (k0 : ι) : Submodule ℝ (SArr d ι) where
  carrier := {u | ∀ i, u i k0 = 0}
  add_mem' := by intro a b ha hb i; simp [ha i, hb i]
  zero_mem' := by intro i; rfl
  smul_mem' := by intro c a ha i; simp [ha i]

/-- C05.  Divergence form without source: the mean velocity (the coefficient at the mode with zero wavenumber) is the
same after any number of steps of any integrator, for any field.  (AB2 started with a new closure at `tstep > 0` is
excluded: see C20.) -/
theorem C05_mean_momentum (c : Ctx 3 ι X) (w : Scratch 3 ι X) (k0 : ι) (hk : ∀ i, c.K i k0 = 0)
    (hs : ∀ i, c.Source i k0 = 0) (est : SArr 3 ι → SArr 3 ι → SArr 3 ι → PyF) (fuel : ℕ) (m : Method) (ds : List ℝ)
    (tstep : ℕ) (hm : m = .AB2 → tstep = 0) (rhs u : SArr 3 ι) (c' : Closure (SArr 3 ι))
    (h : runSteps (rhsNS c fun r u => convDivergence w r u c.Tp c.K) est fuel m tstep ds (getintegrator rhs u) = some c') :
    ∀ i, c'.u0 i k0 = u i k0 := by
  refine run_mem _ (zeroAt 3 k0) {v | ∀ i, v i k0 = u i k0} ?_ ?_ est fuel m ds tstep rhs u (fun _ => rfl)
    (fun h => Or.inl (hm h)) c' h
  · intro v hv w hw i
    have := hw i
    simp [hv i, this]
  · intro r v _ i
    have h2 : K2 c.K k0 = 0 := (K2_eq_zero _ _).2 hk
    have h3 : ∀ i, maskNyquist c.mask (convDivergence w r v c.Tp c.K) i k0 = 0 := by
      intro i
      have h : convDivergence w r v c.Tp c.K i k0 = 0 := by
        rw [convDivergence_eq]; simp [Spec.divergenceForm, hk]
      rcases hmask : c.mask with _ | m
      · exact h
      · simp [maskNyquist, h]
    simp [rhsNS, ComputeRHS, add_pressure_diffusion, hk i, h2, h3, hs i]

/-- A run exists, with a moving mean: two Euler steps with transforms that mix modes. -/
example : let c : Ctx 3 (Fin 2) (Fin 2) := ⟨⟨fun f _ => ((f 0 + f 1 : ℝ) : ℂ), fun a _ => (a 0 + a 1).re⟩,
      fun _ k => if k = 0 then 0 else 1, 1, none, 0⟩
    ∃ c', runSteps (rhsNS c fun r u => convDivergence ⟨0, 0, 0⟩ r u c.Tp c.K) (fun _ _ _ => .fin 0) 1 .ForwardEuler 0
      [0.1, 0.3] (getintegrator 0 fun _ _ => 2) = some c' ∧ c'.u0 0 0 = 2 := by
  intro c
  obtain ⟨c', hc'⟩ : ∃ c', runSteps (rhsNS c fun r u => convDivergence ⟨0, 0, 0⟩ r u c.Tp c.K) (fun _ _ _ => .fin 0) 1
    .ForwardEuler 0 [0.1, 0.3] (getintegrator 0 fun _ _ => 2) = some c' := ⟨_, rfl⟩
  exact ⟨c', hc', C05_mean_momentum c _ 0 (by simp [c]) (by simp [c]) _ 1 .ForwardEuler _ 0 (by simp) 0 _ c' hc' 0⟩

/-! ## C07 -/

variable [Fintype ι] [Fintype X]

theorem power_add (w : ι → ℝ) (u r s : SArr d ι) : Spec.power w u (fun i k => r i k + s i k) = Spec.power w u r + Spec.power w u s := by
  simp only [Spec.power, mul_add, add_re, Finset.sum_add_distrib]

theorem power_sub (w : ι → ℝ) (u r s : SArr d ι) : Spec.power w u (fun i k => r i k - s i k) = Spec.power w u r - Spec.power w u s := by
  simp only [Spec.power, mul_sub, sub_re, Finset.sum_sub_distrib]

theorem power_diffusion (w : ι → ℝ) (K : Fin d → ι → ℝ) (nu : ℝ) (u : SArr d ι) :
    Spec.power w u (fun i k => (nu * K2 K k : ℝ) * u i k) = nu * Spec.dissipation w K u := by
  simp only [Spec.power, Spec.dissipation]
  rw [Finset.sum_comm, Finset.mul_sum]
  refine Finset.sum_congr rfl fun k _ => ?_
  rw [Finset.mul_sum, Finset.mul_sum]
  refine Finset.sum_congr rfl fun i _ => ?_
  rw [mul_left_comm, re_ofReal_mul, K2_eq, mul_comm ((starRingEnd ℂ) (u i k)), mul_conj, ofReal_re]
  ring

theorem power_pressure (w : ι → ℝ) (K : Fin d → ι → ℝ) (u : SArr d ι) (P : ι → ℂ) (hu : Spec.Solenoidal K u) :
    Spec.power w u (fun i k => P k * K i k) = 0 := by
  rw [Spec.power, Finset.sum_comm]
  refine Finset.sum_eq_zero fun k _ => ?_
  rw [← Finset.mul_sum, ← re_sum]
  have h := congrArg (starRingEnd ℂ) (hu k)
  simp only [Spec.dot, Spec.at', map_sum, map_mul, conj_ofReal, map_zero] at h
  rw [show (∑ i, (starRingEnd ℂ) (u i k) * (P k * (K i k : ℂ))) = P k * ∑ i, (K i k : ℂ) * (starRingEnd ℂ) (u i k) by
    rw [Finset.mul_sum]; exact Finset.sum_congr rfl fun i _ => by ring, h, mul_zero, zero_re, mul_zero]

theorem power_mask (w : ι → ℝ) (mask : Option (ι → Bool)) (u r : SArr d ι)
    (hu : ∀ m, mask = some m → ∀ k, m k = false → ∀ i, u i k = 0) :
    Spec.power w u (maskNyquist mask r) = Spec.power w u r := by
  rcases hm : mask with _ | m
  · rfl
  · refine Finset.sum_congr rfl fun i _ => Finset.sum_congr rfl fun k _ => ?_
    rcases hk : m k with _ | _
    · simp [hu m hm k hk i]
    · simp [maskNyquist, hk]

omit [Fintype X] in
/-- C07 (general form).  If the convective term does no work on the velocity, the power of the right-hand side is viscous
dissipation plus work of the source. -/
theorem power_rhs (c : Ctx d ι X) (w : ι → ℝ) (conv : SArr d ι → SArr d ι → SArr d ι) (rhs u : SArr d ι)
    (hu : Spec.Solenoidal c.K u) (hm : ∀ m, c.mask = some m → ∀ k, m k = false → ∀ i, u i k = 0)
    (hc : Spec.power w u (conv rhs u) = 0) :
    Spec.power w u (rhsNS c conv rhs u) = -c.nu * Spec.dissipation w c.K u + Spec.power w u c.Source := by
  have h : rhsNS c conv rhs u = fun i k => (((maskNyquist c.mask (conv rhs u)) i k -
      (∑ j, maskNyquist c.mask (conv rhs u) j k * (K_over_K2 c.K j k : ℂ)) * c.K i k) - (c.nu * K2 c.K k : ℝ) * u i k)
        + c.Source i k := rfl
  rw [h, power_add w u (fun i k => (maskNyquist c.mask (conv rhs u) i k -
      (∑ j, maskNyquist c.mask (conv rhs u) j k * (K_over_K2 c.K j k : ℂ)) * c.K i k) - (c.nu * K2 c.K k : ℝ) * u i k),
    power_sub w u (fun i k => maskNyquist c.mask (conv rhs u) i k -
      (∑ j, maskNyquist c.mask (conv rhs u) j k * (K_over_K2 c.K j k : ℂ)) * c.K i k),
    power_sub w u (maskNyquist c.mask (conv rhs u)), power_mask w c.mask u _ hm, hc, power_diffusion,
    power_pressure w c.K u _ hu]
  ring

/-- C07.  Energy law of the Vortex form in three dimensions, for every adjoint pair of transforms. -/
theorem C07_energy_rate (c : Ctx 3 ι X) (s : Scratch 3 ι X) (w : ι → ℝ) (a : ℝ)
    (hadj : Spec.Adjoint w a c.Tp.forward c.Tp.backward) (rhs u : SArr 3 ι) (hu : Spec.Solenoidal c.K u)
    (hm : ∀ m, c.mask = some m → ∀ k, m k = false → ∀ i, u i k = 0) :
    Spec.power w u (rhsNS c (fun r u => convVortex s r u c.Tp c.K) rhs u) =
      -c.nu * Spec.dissipation w c.K u + Spec.power w u c.Source := by
  refine power_rhs c w _ rhs u hu hm ?_
  rw [convVortex_eq]
  simp only [Spec.power, Spec.lamb]
  rw [Finset.sum_congr rfl fun i _ => hadj (u i) _, ← Finset.mul_sum, Finset.sum_comm]
  rw [Finset.sum_eq_zero fun x _ => ?_, mul_zero]
  simp only [Fin.sum_univ_three, Spec.cross]
  simp only [show (0 : Fin 3) + 1 = 1 from rfl, show (0 : Fin 3) + 2 = 2 from rfl, show (1 : Fin 3) + 1 = 2 from rfl,
    show (1 : Fin 3) + 2 = 0 from rfl, show (2 : Fin 3) + 1 = 0 from rfl, show (2 : Fin 3) + 2 = 1 from rfl]
  ring

omit [Fintype ι] [Fintype X] in
theorem conv2D_eq (w0 : ι → ℂ) (rhs u : SArr 2 ι) (T : Space ι X) (K : Fin 2 → ι → ℝ) :
    conv2DVortex w0 rhs u T K 0 = T.forward (fun x => T.backward (u 1) x * T.backward (cross2_2d w0 K u) x) ∧
    conv2DVortex w0 rhs u T K 1 = T.forward (fun x => -T.backward (u 0) x * T.backward (cross2_2d w0 K u) x) := by
  constructor <;> simp [conv2DVortex, Function.update, Space.vbackward]

/-- C07.  The same law in two dimensions (NS2D). -/
theorem C07_energy_rate_2D (c : Ctx 2 ι X) (w0 : ι → ℂ) (w : ι → ℝ) (a : ℝ)
    (hadj : Spec.Adjoint w a c.Tp.forward c.Tp.backward) (rhs u : SArr 2 ι) (hu : Spec.Solenoidal c.K u)
    (hm : ∀ m, c.mask = some m → ∀ k, m k = false → ∀ i, u i k = 0) :
    Spec.power w u (rhsNS c (fun r u => conv2DVortex w0 r u c.Tp c.K) rhs u) =
      -c.nu * Spec.dissipation w c.K u + Spec.power w u c.Source := by
  refine power_rhs c w _ rhs u hu hm ?_
  simp only [Spec.power, Fin.sum_univ_two, (conv2D_eq w0 rhs u c.Tp c.K).1, (conv2D_eq w0 rhs u c.Tp c.K).2]
  rw [hadj, hadj, ← mul_add, ← Finset.sum_add_distrib, Finset.sum_eq_zero fun x _ => ?_, mul_zero]
  ring

theorem energy_hasDeriv (w : ι → ℝ) (U : ℝ → SArr d ι) (r : SArr d ι) (t : ℝ)
    (h : ∀ i k, HasDerivAt (fun s => U s i k) (r i k) t) :
    HasDerivAt (fun s => Spec.energy w (U s)) (Spec.power w (U t) r) t := by
  have h1 : ∀ i k, HasDerivAt (fun s => w k * normSq (U s i k)) (w k * (2 * ((starRingEnd ℂ) (U t i k) * r i k).re)) t := by
    intro i k
    have hre : HasDerivAt (fun s => (U s i k).re) (r i k).re t := by
      simpa [Function.comp_def] using (reCLM.hasFDerivAt (x := U t i k)).comp_hasDerivAt t (f := fun s => U s i k) (h i k)
    have him : HasDerivAt (fun s => (U s i k).im) (r i k).im t := by
      simpa [Function.comp_def] using (imCLM.hasFDerivAt (x := U t i k)).comp_hasDerivAt t (f := fun s => U s i k) (h i k)
    have h2 := ((hre.mul hre).add (him.mul him)).const_mul (w k)
    have e1 : (fun s => w k * normSq (U s i k)) =
        fun s => w k * (((fun s => (U s i k).re) * (fun s => (U s i k).re) + (fun s => (U s i k).im) * fun s => (U s i k).im) s) := by
      funext s; simp [normSq_apply]
    rw [e1]
    refine h2.congr_deriv ?_
    simp only [mul_re, conj_re, conj_im]
    ring
  have h3 := (HasDerivAt.fun_sum fun i (_ : i ∈ Finset.univ) =>
    HasDerivAt.fun_sum fun k (_ : k ∈ Finset.univ) => h1 i k).const_mul (1 / 2)
  refine h3.congr_deriv ?_
  simp only [Spec.power, Finset.mul_sum]
  refine Finset.sum_congr rfl fun i _ => Finset.sum_congr rfl fun k _ => ?_
  ring

/-- C07.  Along every solution of the semi-discrete equations `du/dt = rhs(u)` the energy has derivative
`-nu * dissipation + power of the source`. -/
theorem C07_energy_derivative (c : Ctx 3 ι X) (s : Scratch 3 ι X) (w : ι → ℝ) (a : ℝ)
    (hadj : Spec.Adjoint w a c.Tp.forward c.Tp.backward) (rhs : SArr 3 ι) (U : ℝ → SArr 3 ι) (t : ℝ)
    (hU : ∀ i k, HasDerivAt (fun s => U s i k) (rhsNS c (fun r u => convVortex s r u c.Tp c.K) rhs (U t) i k) t)
    (hu : Spec.Solenoidal c.K (U t)) (hm : ∀ m, c.mask = some m → ∀ k, m k = false → ∀ i, U t i k = 0) :
    HasDerivAt (fun s => Spec.energy w (U s)) (-c.nu * Spec.dissipation w c.K (U t) + Spec.power w (U t) c.Source) t := by
  rw [← C07_energy_rate c s w a hadj rhs (U t) hu hm]
  exact energy_hasDeriv w U _ t hU

theorem dissipation_nonneg (w : ι → ℝ) (hw : ∀ k, 0 ≤ w k) (K : Fin d → ι → ℝ) (u : SArr d ι) : 0 ≤ Spec.dissipation w K u :=
  Finset.sum_nonneg fun k _ => mul_nonneg (mul_nonneg (hw k) (by rw [← K2_eq]; exact K2_nonneg K k))
    (Finset.sum_nonneg fun i _ => normSq_nonneg _)

/-- C07.  With `nu >= 0` and no source the energy of a divergence-free solution never grows. -/
theorem C07_energy_antitone (c : Ctx 3 ι X) (s : Scratch 3 ι X) (w : ι → ℝ) (hw : ∀ k, 0 ≤ w k) (a : ℝ)
    (hadj : Spec.Adjoint w a c.Tp.forward c.Tp.backward) (hnu : 0 ≤ c.nu) (hs : c.Source = 0) (rhs : SArr 3 ι)
    (U : ℝ → SArr 3 ι)
    (hU : ∀ t i k, HasDerivAt (fun s => U s i k) (rhsNS c (fun r u => convVortex s r u c.Tp c.K) rhs (U t) i k) t)
    (hu : ∀ t, Spec.Solenoidal c.K (U t)) (hm : ∀ t, ∀ m, c.mask = some m → ∀ k, m k = false → ∀ i, U t i k = 0) :
    Antitone fun t => Spec.energy w (U t) := by
  have h := fun t => C07_energy_derivative c s w a hadj rhs U t (hU t) (hu t) (hm t)
  refine antitone_of_deriv_nonpos (fun t => (h t).differentiableAt) fun t => ?_
  rw [(h t).deriv, hs]
  have := mul_nonneg hnu (dissipation_nonneg w hw c.K (U t))
  simp only [Spec.power, Pi.zero_apply, mul_zero, zero_re, Finset.sum_const_zero]
  linarith

/-- C07.  The energy law for the real transforms of the solvers on any grid, collocated (`M = N`) or padded. -/
theorem C07_energy_rate_fft (N M : Fin 3 → ℕ) (L : Fin 3 → ℝ) (nu : ℝ) (s : Scratch 3 (RModes N) (Grid M))
    (rhs u Source : SArr 3 (RModes N)) (hu : Spec.Solenoidal (scaledWaves N L) u) :
    let c : Ctx 3 (RModes N) (Grid M) := ⟨rspace N M, scaledWaves N L, nu, none, Source⟩
    Spec.power (rweight N) u (rhsNS c (fun r u => convVortex s r u c.Tp c.K) rhs u) =
      -nu * Spec.dissipation (rweight N) (scaledWaves N L) u + Spec.power (rweight N) u Source := by
  intro c
  exact C07_energy_rate c s (rweight N) _ (dft_adjoint (kernel (waves N) M) (rweight N)) rhs u hu (fun m h => by simp [c] at h)

/-- The hypotheses of the energy law hold for a nonzero velocity on every real grid: put a single third component at any mode
with zero third wavenumber. -/
example (N : Fin 3 → ℕ) (k0 : RModes N) (hk0 : waves N 2 k0 = 0) :
    let u : SArr 3 (RModes N) := fun i k => if i = 2 ∧ k = k0 then 1 else 0
    Spec.Solenoidal (scaledWaves N 1) u ∧ 0 < Spec.energy (rweight N) u := by
  intro u
  constructor
  · intro k
    by_cases hk : k = k0
    · simp [Spec.dot, Spec.at', u, hk, scaledWaves, hk0]
    · simp [Spec.dot, Spec.at', u, hk]
  · unfold Spec.energy
    have hw : ∀ k, 0 < rweight N k := fun k => by unfold rweight; split <;> norm_num
    refine mul_pos (by norm_num) (Finset.sum_pos' (fun i _ => Finset.sum_nonneg fun k _ => ?_) ⟨2, Finset.mem_univ _, ?_⟩)
    · exact mul_nonneg (hw k).le (normSq_nonneg _)
    · refine Finset.sum_pos' (fun k _ => mul_nonneg (hw k).le (normSq_nonneg _)) ⟨k0, Finset.mem_univ _, ?_⟩
      simp [u, hw k0]

end SpectralDNS.Periodic

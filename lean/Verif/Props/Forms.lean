import Verif.Props.InvariantsFFT

/-!
# C82: without aliasing the form of the convection does not matter
-/

namespace SpectralDNS.Periodic

open Complex Spec Dealias

variable {ι X : Type*} {d : ℕ} [Fintype ι] [Fintype X]

omit [Fintype X] in
/-- Two arrays with the same mean product with all fields that vanish on masked modes agree on the other modes. -/
theorem eq_of_inner (w : ι → ℝ) (hw : ∀ k, w k ≠ 0) (mask : Option (ι → Bool)) (r s : ι → ℂ)
    (h : ∀ e, Vanishes mask e → Spec.inner w e r = Spec.inner w e s) (k : ι) (hk : keeps mask k = true) : r k = s k := by
  classical
  have key : ∀ z : ℂ, ((starRingEnd ℂ) z * (r k - s k)).re = 0 := fun z => by
    have h1 := h (fun l => if l = k then z else 0) fun l hl => if_neg fun e => by rw [e, hk] at hl; exact absurd hl (by decide)
    simp only [Spec.inner] at h1
    rw [Finset.sum_eq_single k (fun l _ hl => by simp [hl]) (by simp), Finset.sum_eq_single k (fun l _ hl => by simp [hl]) (by simp)] at h1
    simp only [if_true] at h1
    rw [mul_sub, sub_re, mul_left_cancel₀ (hw k) h1, sub_self]
  have h1 := key 1
  have h2 := key I
  refine sub_eq_zero.1 (Complex.ext ?_ ?_)
  · simpa using h1
  · simpa using h2

section
variable {T : Space ι X} (H : Additive T) {K : Fin d → ι → ℝ} {w : ι → ℝ} (hw : ∀ k, w k ≠ 0) {a : ℝ}
  (hadj : Adjoint w a T.forward T.backward) {mask : Option (ι → Bool)} (hL : Leibniz T.backward K (Vanishes mask))
  {u : SArr d ι} (hm : ∀ i, Vanishes mask (u i))
include H hw hadj hL hm

/-- Conservative and convective form agree on the kept modes. -/
theorem divergence_eq_advection (hu : Solenoidal K u) (i : Fin d) (k : ι) (hk : keeps mask k = true) :
    divergenceForm T.forward T.backward K u i k = advection T.forward T.backward K u i k := by
  refine eq_of_inner w hw mask _ _ (fun e he => ?_) k hk
  have h1 : Spec.inner w e (divergenceForm T.forward T.backward K u i) = -(a * adv T.backward K u e (u i)) := by
    refine (inner_divergence hadj K e fun j x => T.backward (u i) x * T.backward (u j) x).trans ?_
    congr 2
    refine Finset.sum_congr rfl fun x _ => Finset.sum_congr rfl fun j _ => ?_
    ring
  have h2 : Spec.inner w e (advection T.forward T.backward K u i) = a * adv T.backward K u (u i) e := by
    refine (inner_forward hadj e _).trans ?_
    congr 1
    refine Finset.sum_congr rfl fun x _ => ?_
    rw [Finset.mul_sum]
    exact Finset.sum_congr rfl fun j _ => mul_comm _ _
  rw [h1, h2, adv_antisymm H hL hu hm he (hm i)]
  ring

end

section
variable {T : Space ι X} (H : Additive T) {K : Fin d → ι → ℝ} {w : ι → ℝ} (hw : ∀ k, w k ≠ 0) {a : ℝ}
  (hadj : Adjoint w a T.forward T.backward) {mask : Option (ι → Bool)} (hL : Leibniz T.backward K (Vanishes mask))
  {u : SArr d ι} (hm : ∀ i, Vanishes mask (u i))
include H hw hadj hL hm

/-- The gradient of `|u|^2/2`, computed on the grid or from the coefficients of `|u|^2/2`. -/
theorem forward_grad_sq (i : Fin d) (k : ι) (hk : keeps mask k = true) :
    T.forward (fun x => ∑ j, T.backward (u j) x * T.backward (Spec.deriv K i (u j)) x) k =
      I * K i k * (1 / 2 * T.forward (fun x => ∑ j, T.backward (u j) x * T.backward (u j) x) k) := by
  refine eq_of_inner w hw mask _ (Spec.deriv K i fun k => 1 / 2 * T.forward (fun x => ∑ j, T.backward (u j) x * T.backward (u j) x) k)
    (fun e he => ?_) k hk
  have hhalf : ∀ (b r : ι → ℂ), Spec.inner w b (fun k => 1 / 2 * r k) = 1 / 2 * Spec.inner w b r := fun b r => by
    simp only [Spec.inner, Finset.mul_sum]
    refine Finset.sum_congr rfl fun k _ => ?_
    rw [mul_left_comm ((starRingEnd ℂ) (b k)), show (1 / 2 : ℂ) = ((1 / 2 : ℝ) : ℂ) by push_cast; ring, re_ofReal_mul]
    ring
  rw [inner_deriv, hhalf, inner_forward hadj, inner_forward hadj]
  have hl := Finset.sum_eq_zero fun j (_ : j ∈ (Finset.univ : Finset (Fin d))) => hL i e (u j) (u j) he (hm j) (hm j)
  rw [Finset.sum_comm] at hl
  have e2 : ∀ x, ∑ j, (T.backward (Spec.deriv K i e) x * T.backward (u j) x * T.backward (u j) x +
      T.backward e x * T.backward (Spec.deriv K i (u j)) x * T.backward (u j) x + T.backward e x * T.backward (u j) x * T.backward (Spec.deriv K i (u j)) x) =
      T.backward (Spec.deriv K i e) x * (∑ j, T.backward (u j) x * T.backward (u j) x) +
        2 * (T.backward e x * ∑ j, T.backward (u j) x * T.backward (Spec.deriv K i (u j)) x) := fun x => by
    simp only [Finset.mul_sum, ← Finset.sum_add_distrib]
    exact Finset.sum_congr rfl fun j _ => by ring
  rw [Finset.sum_congr rfl fun x _ => e2 x, Finset.sum_add_distrib, ← Finset.mul_sum] at hl
  linear_combination (a / 2) * hl

end

section
variable {T : Space ι X} (H : Additive T) {w : ι → ℝ} (hw : ∀ k, w k ≠ 0) {a : ℝ}
  (hadj : Adjoint w a T.forward T.backward) {mask : Option (ι → Bool)}
include H hw hadj

/-- Vortex and convective form differ by the gradient of `|u|^2/2` on the kept modes. -/
theorem lamb_eq_advection {K : Fin 3 → ι → ℝ} (hL : Leibniz T.backward K (Vanishes mask)) {u : SArr 3 ι} (hm : ∀ i, Vanishes mask (u i))
    (i : Fin 3) (k : ι) (hk : keeps mask k = true) :
    lamb T.forward T.backward K u i k = -advection T.forward T.backward K u i k
      + I * K i k * (1 / 2 * T.forward (fun x => ∑ j, T.backward (u j) x * T.backward (u j) x) k) := by
  obtain ⟨h1, h2, h3, h4, h5, h6⟩ := fin3_add
  have hc : ∀ i x, T.backward (curl K u i) x = T.backward (Spec.deriv K (i + 1) (u (i + 2))) x - T.backward (Spec.deriv K (i + 2) (u (i + 1))) x := by
    intro i x
    have e : curl K u i = fun k => Spec.deriv K (i + 1) (u (i + 2)) k + -Spec.deriv K (i + 2) (u (i + 1)) k := by
      funext k
      simp only [curl, cross, Spec.deriv]
      ring
    rw [e, H.backward, H.backward_neg]
    ring
  have hsum : lamb T.forward T.backward K u i k + advection T.forward T.backward K u i k =
      T.forward (fun x => ∑ j, T.backward (u j) x * T.backward (Spec.deriv K i (u j)) x) k := by
    rw [show advection T.forward T.backward K u i = T.forward fun x => ∑ j, T.backward (u j) x * T.backward (Spec.deriv K j (u i)) x from rfl]
    simp only [lamb]
    rw [← congrFun (H.forward _ _) k]
    congr 2
    funext x
    rw [show (fun j => T.backward (curl K u j) x) = fun j => T.backward (Spec.deriv K (j + 1) (u (j + 2))) x -
      T.backward (Spec.deriv K (j + 2) (u (j + 1))) x from funext fun j => hc j x]
    simp only [Fin.sum_univ_three, cross]
    fin_cases i <;> simp only [Fin.zero_eta, Fin.mk_one, Fin.reduceFinMk, h1, h2, h3, h4, h5, h6] <;> ring
  rw [forward_grad_sq H hw hadj hL hm i k hk] at hsum
  linear_combination hsum

/-- The same in two dimensions. -/
theorem lamb2_eq_advection {K : Fin 2 → ι → ℝ} (hL : Leibniz T.backward K (Vanishes mask)) {u : SArr 2 ι} (hm : ∀ i, Vanishes mask (u i))
    (i : Fin 2) (k : ι) (hk : keeps mask k = true) :
    lamb2 T.forward T.backward K u i k = -advection T.forward T.backward K u i k
      + I * K i k * (1 / 2 * T.forward (fun x => ∑ j, T.backward (u j) x * T.backward (u j) x) k) := by
  have hc : ∀ x, T.backward (fun k => I * (K 0 k * u 1 k - K 1 k * u 0 k)) x =
      T.backward (Spec.deriv K 0 (u 1)) x - T.backward (Spec.deriv K 1 (u 0)) x := by
    intro x
    have e : (fun k => I * (K 0 k * u 1 k - K 1 k * u 0 k)) = fun k => Spec.deriv K 0 (u 1) k + -Spec.deriv K 1 (u 0) k := by
      funext k
      simp only [Spec.deriv]
      ring
    rw [e, H.backward, H.backward_neg]
    ring
  have hsum : lamb2 T.forward T.backward K u i k + advection T.forward T.backward K u i k =
      T.forward (fun x => ∑ j, T.backward (u j) x * T.backward (Spec.deriv K i (u j)) x) k := by
    rw [show advection T.forward T.backward K u i = T.forward fun x => ∑ j, T.backward (u j) x * T.backward (Spec.deriv K j (u i)) x from rfl]
    simp only [lamb2, hc]
    fin_cases i <;> simp only [Fin.zero_eta, Fin.mk_one, Matrix.cons_val_zero, Matrix.cons_val_one] <;> rw [← congrFun (H.forward _ _) k] <;>
      congr 2 <;> funext x <;> simp only [Fin.sum_univ_two] <;> ring
  rw [forward_grad_sq H hw hadj hL hm i k hk] at hsum
  linear_combination hsum

end

omit [Fintype X] in
/-- The part of the convective term along `k` has no influence on the right-hand side; the pressure takes it up. -/
theorem rhsNS_gradient (c : Ctx d ι X) (conv conv' : SArr d ι → SArr d ι → SArr d ι) (r r' u : SArr d ι) (phi : ι → ℂ)
    (h : ∀ i k, keeps c.mask k = true → conv r u i k = conv' r' u i k + I * c.K i k * phi k) :
    rhsNS c conv r u = rhsNS c conv' r' u ∧
      ∀ k, pressureHat (ComputeRHS c conv r u).2 k = pressureHat (ComputeRHS c conv' r' u).2 k + (if keeps c.mask k ∧ ∃ i, c.K i k ≠ 0 then phi k else 0) := by
  have hg : ∀ i k, maskNyquist c.mask (conv r u) i k = maskNyquist c.mask (conv' r' u) i k + I * c.K i k * (if keeps c.mask k then phi k else 0) := fun i k => by
    simp only [maskNyquist_keeps]
    by_cases hk : keeps c.mask k = true
    · simp [hk, h i k hk]
    · simp [hk]
  have hs : ∀ k, ∑ j, (I * c.K j k * (if keeps c.mask k then phi k else 0)) * (K_over_K2 c.K j k : ℂ) =
      I * (if keeps c.mask k ∧ ∃ i, c.K i k ≠ 0 then phi k else 0) := fun k => by
    by_cases hk : ∀ i, c.K i k = 0
    · simp [hk]
    · have h2 : K2 c.K k ≠ 0 := fun e => hk ((K2_eq_zero c.K k).1 e)
      have h2' : (K2 c.K k : ℂ) ≠ 0 := by exact_mod_cast h2
      have e := sum_KoK2 c.K k (fun j => I * c.K j k * (if keeps c.mask k then phi k else 0))
      have e3 : dot (at' c.K k) (fun j => I * c.K j k * (if keeps c.mask k then phi k else 0)) =
          (K2 c.K k : ℂ) * (I * (if keeps c.mask k then phi k else 0)) := by
        simp only [dot, at', K2, ofReal_sum, Finset.sum_mul, ofReal_mul]
        exact Finset.sum_congr rfl fun j _ => by ring
      rw [e3] at e
      have hne : ∃ i, c.K i k ≠ 0 := by push Not at hk; exact hk
      simp only [hne, and_true]
      exact mul_right_cancel₀ h2' (e.trans (mul_comm _ _))
  refine ⟨?_, fun k => ?_⟩
  · funext i k
    simp only [rhsNS, ComputeRHS, add_pressure_diffusion, hg, add_mul, Finset.sum_add_distrib, hs]
    by_cases hk : ∀ i, c.K i k = 0
    · simp [hk]
    · have hne : ∃ i, c.K i k ≠ 0 := by push Not at hk; exact hk
      simp only [hne, and_true]
      ring
  · simp only [pressureHat, ComputeRHS, add_pressure_diffusion, hg, add_mul, Finset.sum_add_distrib, hs]
    split_ifs
    · linear_combination (-phi k) * I_mul_I
    · ring

section
variable (c : Ctx 3 ι X) (H : Additive c.Tp) (w : ι → ℝ) (hw : ∀ k, w k ≠ 0) (a : ℝ)
  (hadj : Adjoint w a c.Tp.forward c.Tp.backward) (hL : Leibniz c.Tp.backward c.K (Vanishes c.mask))
include H hw hadj hL

/-- C82.  On divergence-free velocities without masked modes all forms of the convection give the right-hand side of the Standard form;
the pressure of the Standard, Divergence and Skewed forms is the same, that of the Vortex form has `|u|^2/2` added. -/
theorem C82_same_rhs (name : String) (conv) (hname : (getConvection name :
      Option (Scratch 3 ι X → SArr 3 ι → SArr 3 ι → Space ι X → (Fin 3 → ι → ℝ) → SArr 3 ι)) = some conv)
    (s s' : Scratch 3 ι X) (r r' u : SArr 3 ι) (hu : Solenoidal c.K u) (hm : ∀ i, Vanishes c.mask (u i)) :
    rhsNS c (fun r u => conv s r u c.Tp c.K) r u = rhsNS c (fun r u => convStandard s' r u c.Tp c.K) r' u ∧
    ∀ k, pressureHat (ComputeRHS c (fun r u => conv s r u c.Tp c.K) r u).2 k =
      pressureHat (ComputeRHS c (fun r u => convStandard s' r u c.Tp c.K) r' u).2 k +
        if name = "Vortex" ∧ keeps c.mask k ∧ ∃ i, c.K i k ≠ 0 then
          1 / 2 * c.Tp.forward (fun x => ∑ j, c.Tp.backward (u j) x * c.Tp.backward (u j) x) k else 0 := by
  have hf := C06_convection_forms (ι := ι) (X := X) name
  rw [hname] at hf
  have h0 : ∀ (_ : name ≠ "Vortex") i k, keeps c.mask k = true →
      conv s r u c.Tp c.K i k = convStandard s' r' u c.Tp c.K i k + I * c.K i k * 0 := fun hv i k hk => by
    have hd := divergence_eq_advection H hw hadj hL hm hu i k hk
    rw [convStandard_eq, mul_zero, add_zero]
    rcases hf s r u c.Tp c.K i k with ⟨_, e⟩ | ⟨_, e⟩ | ⟨_, e⟩ | ⟨e, _⟩
    · exact e
    · rw [e, hd]
    · rw [e, hd]; ring
    · exact absurd e hv
  by_cases hv : name = "Vortex"
  · have h1 : ∀ i k, keeps c.mask k = true → conv s r u c.Tp c.K i k = convStandard s' r' u c.Tp c.K i k +
        I * c.K i k * (1 / 2 * c.Tp.forward (fun x => ∑ j, c.Tp.backward (u j) x * c.Tp.backward (u j) x) k) := fun i k hk => by
      rw [convStandard_eq, ← lamb_eq_advection H hw hadj hL hm i k hk]
      rcases hf s r u c.Tp c.K i k with ⟨e, _⟩ | ⟨e, _⟩ | ⟨e, _⟩ | ⟨_, e⟩
      · exact absurd (hv.symm.trans e) (by decide)
      · exact absurd (hv.symm.trans e) (by decide)
      · exact absurd (hv.symm.trans e) (by decide)
      · exact e
    have h2 := rhsNS_gradient c (fun r u => conv s r u c.Tp c.K) (fun r u => convStandard s' r u c.Tp c.K) r r' u _ h1
    simpa only [hv, true_and] using h2
  · have h2 := rhsNS_gradient c (fun r u => conv s r u c.Tp c.K) (fun r u => convStandard s' r u c.Tp c.K) r r' u (fun _ => 0) (h0 hv)
    simpa [hv] using h2

/-- C82.  Whole runs: with any two forms, any integrator (fixed or adaptive), any number and sizes of steps, the computed flow is the
same. -/
theorem C82_same_run (hs : Solenoidal c.K c.Source) (hsm : ∀ i, Vanishes c.mask (c.Source i)) (name name' : String) (conv conv')
    (hname : (getConvection name : Option (Scratch 3 ι X → SArr 3 ι → SArr 3 ι → Space ι X → (Fin 3 → ι → ℝ) → SArr 3 ι)) = some conv)
    (hname' : (getConvection name' : Option (Scratch 3 ι X → SArr 3 ι → SArr 3 ι → Space ι X → (Fin 3 → ι → ℝ) → SArr 3 ι)) = some conv')
    (s s' : Scratch 3 ι X) (est : SArr 3 ι → SArr 3 ι → SArr 3 ι → PyF) (fuel : ℕ) (m : Method) (ds : List ℝ) (tstep : ℕ) (rhs rhs' u : SArr 3 ι)
    (hu : Solenoidal c.K u) (hm : ∀ i, Vanishes c.mask (u i)) (r : Closure (SArr 3 ι))
    (h : runSteps (rhsNS c fun r u => conv s r u c.Tp c.K) est fuel m tstep ds (getintegrator rhs u) = some r) :
    ∃ r', runSteps (rhsNS c fun r u => conv' s' r u c.Tp c.K) est fuel m tstep ds (getintegrator rhs' u) = some r' ∧ r'.u0 = r.u0 := by
  let W : Submodule ℝ (SArr 3 ι) :=
    { carrier := {u | Solenoidal c.K u ∧ ∀ i, Vanishes c.mask (u i)}
      add_mem' := fun {u v} hu hv => ⟨(solenoidal c.K).add_mem hu.1 hv.1, fun i k hk => by simp [hu.2 i k hk, hv.2 i k hk]⟩
      zero_mem' := ⟨solenoidal_zero _, fun _ _ _ => rfl⟩
      smul_mem' := fun t {u} hu => ⟨(solenoidal c.K).smul_mem t hu.1, fun i k hk => by simp [hu.2 i k hk]⟩ }
  have H' : Intertwines (LinearMap.id) (W : Set (SArr 3 ι)) W (rhsNS c fun r u => conv s r u c.Tp c.K)
      (rhsNS c fun r u => conv' s' r u c.Tp c.K) :=
    ⟨fun _ hu _ hw => W.add_mem hu hw, fun r u hu => ⟨fun k => by rw [C01_rhs_divergence, hs k, hu.1 k, mul_zero, sub_zero], fun i k hk => by
        simp [rhsNS, ComputeRHS, add_pressure_diffusion, maskNyquist_keeps, hk, hsm i k hk, hu.2 i k hk]⟩, fun r r' u hu => by
      rw [LinearMap.id_apply, LinearMap.id_apply, (C82_same_rhs c H w hw a hadj hL name conv hname s s r r u hu.1 hu.2).1,
        (C82_same_rhs c H w hw a hadj hL name' conv' hname' s' s r' r u hu.1 hu.2).1]⟩
  obtain ⟨r', h1, h2⟩ := run_map H' est est m (fun _ _ _ _ _ _ => rfl) fuel ds tstep rhs u rhs' ⟨hu, hm⟩ (fun _ => Or.inr ⟨hu, hm⟩) r h
  exact ⟨r', h1, h2⟩

end

/-- C82.  The NS solver with the 3/2-rule and the Nyquist mask, any mesh, any box: the flow does not depend on the form of the convection. -/
theorem C82_padded (N : Fin 3 → ℕ) (hN : ∀ i, 0 < N i) (L : Fin 3 → ℝ) (nu : ℝ) (Source : SArr 3 (RModes N))
    (hs : Solenoidal (scaledWaves N L) Source) (hsm : ∀ i, Unmasked N (Source i)) (name name' : String) (conv conv')
    (hname : getConvection name = some conv) (hname' : getConvection name' = some conv') (s s' : Scratch 3 (RModes N) (Grid fun i => padded (N i)))
    (est : SArr 3 (RModes N) → SArr 3 (RModes N) → SArr 3 (RModes N) → PyF) (fuel : ℕ) (m : Method) (ds : List ℝ) (tstep : ℕ)
    (rhs rhs' u : SArr 3 (RModes N)) (hu : Solenoidal (scaledWaves N L) u) (hm : ∀ i, Unmasked N (u i)) (r : Closure (SArr 3 (RModes N)))
    (h : runSteps (rhsNS (padCtx N L nu Source) fun r u => conv s r u (padCtx N L nu Source).Tp (padCtx N L nu Source).K) est fuel m tstep ds
      (getintegrator rhs u) = some r) :
    ∃ r', runSteps (rhsNS (padCtx N L nu Source) fun r u => conv' s' r u (padCtx N L nu Source).Tp (padCtx N L nu Source).K) est fuel m tstep ds
      (getintegrator rhs' u) = some r' ∧ r'.u0 = r.u0 :=
  C82_same_run (padCtx N L nu Source) (padCtx_additive ..) (rweight N) (fun k => by unfold rweight; split <;> norm_num) _ (padCtx_adjoint N L _ _)
    (padCtx_leibniz N hN L nu Source) hs hsm name name' conv conv' hname hname' s s' est fuel m ds tstep rhs rhs' u hu hm r h

/-- A run with a velocity that is not zero and satisfies the hypotheses: the uniform flow and one mode in the third component. -/
example (nu : ℝ) : let N : Fin 3 → ℕ := fun _ => 8
    let u : SArr 3 (RModes N) := fun i k => if i = 2 ∧ waves N 2 k = 0 ∧ waves N 0 k = 1 ∧ waves N 1 k = 0 then 1 else 0
    Solenoidal (scaledWaves N 1) u ∧ (∀ i, Unmasked N (u i)) ∧ (∃ k, u 2 k ≠ 0) ∧
    ∃ r, runSteps (rhsNS (padCtx N 1 nu 0) fun r u => convVortex ⟨0, 0, 0⟩ r u (padCtx N 1 nu 0).Tp (padCtx N 1 nu 0).K) (fun _ _ _ => .fin 0) 1 .RK4 0
      [0.1, 0.3] (getintegrator 0 u) = some r := by
  intro N u
  refine ⟨fun k => ?_, fun i k hk => ?_, ⟨fun i => ⟨if i = 0 then 1 else 0, by fin_cases i <;> decide⟩, ?_⟩, ⟨_, rfl⟩⟩
  · by_cases hk : waves N 2 k = 0
    · simp [dot, at', Fin.sum_univ_three, u, scaledWaves, hk]
    · simp [dot, at', u, hk]
  · refine if_neg fun h => ?_
    rw [nyquistMask, decide_eq_false_iff_not] at hk
    refine hk fun j => ?_
    fin_cases j
    · simp [h.2.2.1, N]
    · simp [h.2.2.2, N]
    · simp [h.2.1, N]
  · have h : ∀ i, waves N i (fun i => ⟨if i = 0 then 1 else 0, by fin_cases i <;> decide⟩) = if i = 0 then 1 else 0 := fun i => by fin_cases i <;> decide
    simp [u, h]

end SpectralDNS.Periodic

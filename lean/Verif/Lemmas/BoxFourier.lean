import Verif.Spec.Classical
import Verif.Lemmas.Torus
import Mathlib.MeasureTheory.Integral.DivergenceTheorem
import Mathlib.Analysis.Calculus.ContDiff.Basic
import Mathlib.Analysis.Calculus.Deriv.Pi
import Mathlib.Analysis.Calculus.ContDiff.Operations
import Mathlib.Analysis.SpecialFunctions.ExpDeriv
import Mathlib.Analysis.Complex.RealDeriv

/-!
# Smooth periodic functions on the box: integration by parts, Fourier coefficients
-/

namespace SpectralDNS.Torus

open Complex Spec Periodic Dealias MeasureTheory
open scoped ContDiff

variable {n : ℕ}

/-! ## Derivatives -/

theorem pderiv_eq {d : ℕ} {f : (Fin d → ℝ) → ℝ} {x : Fin d → ℝ} (hf : DifferentiableAt ℝ f x) (j : Fin d) :
    pderiv j f x = fderiv ℝ f x (Pi.single j 1) := by
  have h1 : HasDerivAt (fun t : ℝ => Function.update x j t) (Pi.single j 1) (x j) := hasDerivAt_update x j (x j)
  have h2 : HasFDerivAt f (fderiv ℝ f x) (Function.update x j (x j)) := by rw [Function.update_eq_self]; exact hf.hasFDerivAt
  exact (h2.comp_hasDerivAt (x j) h1).deriv

theorem _root_.SpectralDNS.Spec.SmoothField.space {d : ℕ} {g : ℝ → (Fin d → ℝ) → ℝ} (hg : SmoothField g) (t : ℝ) : ContDiff ℝ ∞ (g t) :=
  hg.comp (contDiff_const.prodMk contDiff_id)

theorem _root_.SpectralDNS.Spec.SmoothField.time {d : ℕ} {g : ℝ → (Fin d → ℝ) → ℝ} (hg : SmoothField g) (x : Fin d → ℝ) : ContDiff ℝ ∞ fun t => g t x :=
  hg.comp (contDiff_id.prodMk contDiff_const)

theorem _root_.SpectralDNS.Spec.SmoothField.pderiv {d : ℕ} {g : ℝ → (Fin d → ℝ) → ℝ} (hg : SmoothField g) (j : Fin d) : SmoothField fun t => Spec.pderiv j (g t) := by
  rw [SmoothField]
  have h1 : ContDiff ℝ ∞ fun z : ℝ × (Fin d → ℝ) => fderiv ℝ (fun z : ℝ × (Fin d → ℝ) => g z.1 z.2) z (0, Pi.single j 1) :=
    (hg.fderiv_right (m := ∞) (by simp)).clm_apply contDiff_const
  convert h1 using 2 with z
  have hd : DifferentiableAt ℝ (fun z : ℝ × (Fin d → ℝ) => g z.1 z.2) z := hg.differentiable (by simp) z
  have h2 : HasFDerivAt (fun y : Fin d → ℝ => ((z.1, y) : ℝ × (Fin d → ℝ))) (ContinuousLinearMap.inr ℝ ℝ (Fin d → ℝ)) z.2 :=
    hasFDerivAt_prodMk_right z.1 z.2
  have h3 : HasFDerivAt (g z.1) ((fderiv ℝ (fun z : ℝ × (Fin d → ℝ) => g z.1 z.2) z).comp (ContinuousLinearMap.inr ℝ ℝ (Fin d → ℝ))) z.2 :=
    HasFDerivAt.comp (g := fun z : ℝ × (Fin d → ℝ) => g z.1 z.2) z.2 hd.hasFDerivAt h2
  rw [pderiv_eq h3.differentiableAt, h3.fderiv]
  rfl

theorem _root_.SpectralDNS.Spec.SmoothField.deriv {d : ℕ} {g : ℝ → (Fin d → ℝ) → ℝ} (hg : SmoothField g) : SmoothField fun t x => _root_.deriv (fun s => g s x) t := by
  rw [SmoothField]
  have h1 : ContDiff ℝ ∞ fun z : ℝ × (Fin d → ℝ) => fderiv ℝ (fun z : ℝ × (Fin d → ℝ) => g z.1 z.2) z (1, 0) :=
    (hg.fderiv_right (m := ∞) (by simp)).clm_apply contDiff_const
  convert h1 using 2 with z
  have hd : DifferentiableAt ℝ (fun z : ℝ × (Fin d → ℝ) => g z.1 z.2) z := hg.differentiable (by simp) z
  have h2 : HasDerivAt (fun s : ℝ => ((s, z.2) : ℝ × (Fin d → ℝ))) (1, 0) z.1 := (hasDerivAt_id z.1).prodMk (hasDerivAt_const _ _)
  exact (hd.hasFDerivAt.comp_hasDerivAt z.1 h2).deriv

theorem _root_.SpectralDNS.Spec.BoxPeriodic.pderiv {d : ℕ} {L : Fin d → ℝ} {f : (Fin d → ℝ) → ℝ} (hf : BoxPeriodic L f) (j : Fin d) : BoxPeriodic L (Spec.pderiv j f) := by
  intro i x
  simp only [Spec.pderiv]
  have e : ∀ t, f (Function.update (x + Pi.single i (L i)) j (t + (Pi.single i (L i) : Fin d → ℝ) j)) = f (Function.update x j t) := fun t => by
    rw [← hf i (Function.update x j t)]
    congr 1
    funext l
    by_cases h : l = j
    · subst h; simp
    · simp [h]
  have := deriv_comp_add_const (f := fun t => f (Function.update (x + Pi.single i (L i)) j t)) ((Pi.single i (L i) : Fin d → ℝ) j) (x j)
  simp only [e] at this
  exact this.symm

/-! ## Integration by parts -/

section
variable {F : Type*} [NormedAddCommGroup F] [NormedSpace ℝ F]

theorem integral_fderiv_zero {L : Fin (n + 1) → ℝ} (hL : ∀ i, 0 ≤ L i) {f : (Fin (n + 1) → ℝ) → F} (hf : ContDiff ℝ 1 f) (hp : BoxPeriodic L f)
    (j : Fin (n + 1)) : ∫ x in Set.Icc 0 L, fderiv ℝ f x (Pi.single j 1) = 0 := by
  have hc : Continuous fun x => fderiv ℝ f x (Pi.single j 1) := (hf.continuous_fderiv (by simp)).clm_apply continuous_const
  have h := integral_divergence_of_hasFDerivAt_off_countable' (0 : Fin (n + 1) → ℝ) L (fun i => hL i) (fun i x => if i = j then f x else 0)
    (fun i x => if i = j then fderiv ℝ f x else 0) ∅ Set.countable_empty
    (fun i => by split_ifs; exacts [hf.continuous.continuousOn, continuousOn_const])
    (fun x _ i => by split_ifs; exacts [(hf.differentiable (by simp) x).hasFDerivAt, hasFDerivAt_const _ _])
    (by
      refine Continuous.integrableOn_Icc ?_
      refine continuous_finsetSum _ fun i _ => ?_
      by_cases hi : i = j
      · subst hi; simpa using hc
      · simpa [hi] using continuous_const)
  have e1 : ∀ x, ∑ i, (if i = j then fderiv ℝ f x else 0) (Pi.single i 1) = fderiv ℝ f x (Pi.single j 1) := fun x => by
    rw [Finset.sum_eq_single j]
    · simp
    · intro b _ hb; simp [hb]
    · simp
  simp only [e1] at h
  rw [h]
  refine Finset.sum_eq_zero fun i _ => ?_
  by_cases hi : i = j
  · subst hi
    simp only [if_true]
    refine sub_eq_zero.2 (integral_congr_ae (Filter.Eventually.of_forall fun y => ?_))
    have := hp i (Fin.insertNth i ((0 : Fin (n + 1) → ℝ) i) y)
    show f (Fin.insertNth i (L i) y) = f (Fin.insertNth i ((0 : Fin (n + 1) → ℝ) i) y)
    rw [← this]
    congr 1
    funext l
    refine Fin.succAboveCases i ?_ (fun l => ?_) l
    · simp
    · simp [Fin.succAbove_ne]
  · simp [hi]

end

theorem boxMean_pderiv {L : Fin (n + 1) → ℝ} (hL : ∀ i, 0 ≤ L i) {f : (Fin (n + 1) → ℝ) → ℝ} (hf : ContDiff ℝ 1 f) (hp : BoxPeriodic L f)
    (j : Fin (n + 1)) : boxMean L (pderiv j f) = 0 := by
  rw [boxMean, show pderiv j f = fun x => fderiv ℝ f x (Pi.single j 1) from funext fun x => pderiv_eq (hf.differentiable (by simp) x) j,
    integral_fderiv_zero hL hf hp j, mul_zero]

theorem pderiv_mul {d : ℕ} {f g : (Fin d → ℝ) → ℝ} (hf : Differentiable ℝ f) (hg : Differentiable ℝ g) (j : Fin d) (x : Fin d → ℝ) :
    pderiv j (fun x => f x * g x) x = pderiv j f x * g x + f x * pderiv j g x := by
  rw [pderiv_eq (f := fun x => f x * g x) ((hf x).mul (hg x)), pderiv_eq (hf x), pderiv_eq (hg x), fderiv_fun_mul (hf x) (hg x)]
  simp only [add_apply, smul_apply, smul_eq_mul]
  ring

theorem contDiff_pderiv {d : ℕ} {f : (Fin d → ℝ) → ℝ} {m : ℕ∞} (hf : ContDiff ℝ (m + 1 : ℕ∞) f) (j : Fin d) : ContDiff ℝ m (pderiv j f) := by
  rw [show pderiv j f = fun x => fderiv ℝ f x (Pi.single j 1) from funext fun x => pderiv_eq (hf.differentiable (by simp) x) j]
  exact (hf.fderiv_right (by norm_cast)).clm_apply contDiff_const

theorem continuous_pderiv {d : ℕ} {f : (Fin d → ℝ) → ℝ} (hf : ContDiff ℝ 1 f) (j : Fin d) : Continuous (pderiv j f) := by
  rw [show pderiv j f = fun x => fderiv ℝ f x (Pi.single j 1) from funext fun x => pderiv_eq (hf.differentiable (by simp) x) j]
  exact (hf.continuous_fderiv (by simp)).clm_apply continuous_const

theorem _root_.SpectralDNS.Spec.BoxPeriodic.mul {d : ℕ} {L : Fin d → ℝ} {f g : (Fin d → ℝ) → ℝ} (hf : BoxPeriodic L f) (hg : BoxPeriodic L g) :
    BoxPeriodic L fun x => f x * g x := fun i x => by simp only [hf i x, hg i x]

/-- Integration by parts. -/
theorem boxMean_parts {L : Fin (n + 1) → ℝ} (hL : ∀ i, 0 ≤ L i) {f g : (Fin (n + 1) → ℝ) → ℝ} (hf : ContDiff ℝ 1 f) (hg : ContDiff ℝ 1 g)
    (pf : BoxPeriodic L f) (pg : BoxPeriodic L g) (j : Fin (n + 1)) :
    boxMean L (fun x => pderiv j f x * g x) = -boxMean L (fun x => f x * pderiv j g x) := by
  have h := boxMean_pderiv hL (hf.mul hg) (BoxPeriodic.mul pf pg) j
  rw [show pderiv j (fun x => f x * g x) = fun x => pderiv j f x * g x + f x * pderiv j g x from
    funext fun x => pderiv_mul (hf.differentiable (by simp)) (hg.differentiable (by simp)) j x] at h
  have c1 := ((continuous_pderiv hf j).mul hg.continuous).integrableOn_Icc (a := 0) (b := L) (μ := volume)
  have c2 := (hf.continuous.mul (continuous_pderiv hg j)).integrableOn_Icc (a := 0) (b := L) (μ := volume)
  simp only [boxMean] at h ⊢
  have e := integral_add c1 c2
  simp only [Pi.mul_apply] at e
  rw [e] at h
  linarith

/-! ## Fourier coefficients -/

/-- Wavenumber `2 pi m_j / L_j`. -/
noncomputable def kappa {d : ℕ} (L : Fin d → ℝ) (m : Fin d → ℤ) (j : Fin d) : ℝ := 2 * Real.pi / L j * m j

/-- Fourier coefficient of a function on the box. -/
noncomputable def coef {d : ℕ} (L : Fin d → ℝ) (f : (Fin d → ℝ) → ℝ) (m : Fin d → ℤ) : ℂ :=
  ((∏ i, L i : ℝ) : ℂ)⁻¹ * ∫ x in Set.Icc 0 L, (f x : ℂ) * cwave L (-m) x

theorem norm_cwave {d : ℕ} (L : Fin d → ℝ) (p : Fin d → ℤ) (x : Fin d → ℝ) : ‖cwave L p x‖ = 1 := by
  have e : (I * ∑ i, ((2 * Real.pi / L i * p i : ℝ) : ℂ) * x i) = ((∑ i, (2 * Real.pi / L i * p i) * x i : ℝ) : ℂ) * I := by
    push_cast
    ring
  rw [cwave, e, Complex.norm_exp_ofReal_mul_I]

theorem cwave_contDiff {d : ℕ} (L : Fin d → ℝ) (p : Fin d → ℤ) : ContDiff ℝ ∞ (cwave L p) := by
  unfold cwave
  have h : ContDiff ℝ ∞ fun x : Fin d → ℝ => I * ∑ i, ((2 * Real.pi / L i * p i : ℝ) : ℂ) * x i := by
    refine contDiff_const.mul (ContDiff.sum fun i _ => contDiff_const.mul ?_)
    exact ofRealCLM.contDiff.comp (contDiff_apply ℝ ℝ i)
  exact h.cexp

theorem cwave_periodic {d : ℕ} {L : Fin d → ℝ} (hL : ∀ i, 0 < L i) (p : Fin d → ℤ) : BoxPeriodic L (cwave L p) := by
  intro i x
  have e : I * ∑ l, ((2 * Real.pi / L l * p l : ℝ) : ℂ) * (((x + Pi.single i (L i) : Fin d → ℝ) l : ℝ) : ℂ) =
      I * ∑ l, ((2 * Real.pi / L l * p l : ℝ) : ℂ) * x l + p i * (2 * Real.pi * I) := by
    have h1 : ∀ l, ((2 * Real.pi / L l * p l : ℝ) : ℂ) * (((x + Pi.single i (L i) : Fin d → ℝ) l : ℝ) : ℂ) =
        ((2 * Real.pi / L l * p l : ℝ) : ℂ) * x l + if l = i then 2 * Real.pi * (p i : ℂ) else 0 := fun l => by
      by_cases h : l = i
      · subst h
        have hl : (L l : ℂ) ≠ 0 := by exact_mod_cast (hL l).ne'
        simp only [Pi.add_apply, Pi.single_eq_same, if_true]
        push_cast
        field_simp
      · simp [h]
    simp only [h1, Finset.sum_add_distrib, Finset.sum_ite_eq', Finset.mem_univ, if_true]
    ring
  rw [cwave, e, Complex.exp_add, Complex.exp_int_mul_two_pi_mul_I, mul_one, cwave]

theorem cwave_hasDeriv {d : ℕ} (L : Fin d → ℝ) (p : Fin d → ℤ) (j : Fin d) (x : Fin d → ℝ) :
    HasDerivAt (fun t => cwave L p (Function.update x j t)) (I * kappa L p j * cwave L p x) (x j) := by
  have h1 : HasDerivAt (fun t : ℝ => ∑ i, ((2 * Real.pi / L i * p i : ℝ) : ℂ) * ((Function.update x j t i : ℝ) : ℂ)) (kappa L p j : ℂ) (x j) := by
    have : ∀ i, HasDerivAt (fun t : ℝ => ((2 * Real.pi / L i * p i : ℝ) : ℂ) * ((Function.update x j t i : ℝ) : ℂ))
        (if i = j then (kappa L p i : ℂ) else 0) (x j) := fun i => by
      by_cases h : i = j
      · subst h
        simpa [kappa] using (ofRealCLM.hasDerivAt (x := x i)).const_mul ((2 * Real.pi / L i * p i : ℝ) : ℂ)
      · simp only [Function.update_of_ne h, if_neg h]
        exact hasDerivAt_const _ _
    refine (HasDerivAt.fun_sum fun i _ => this i).congr_deriv ?_
    simp
  refine ((h1.const_mul I).cexp).congr_deriv ?_
  rw [Function.update_eq_self, cwave]
  ring

theorem coef_pderiv {L : Fin (n + 1) → ℝ} (hL : ∀ i, 0 < L i) {f : (Fin (n + 1) → ℝ) → ℝ} (hf : ContDiff ℝ 1 f) (hp : BoxPeriodic L f)
    (j : Fin (n + 1)) (m : Fin (n + 1) → ℤ) : coef L (pderiv j f) m = I * kappa L m j * coef L f m := by
  have hG : ContDiff ℝ 1 fun x => (f x : ℂ) * cwave L (-m) x :=
    (ofRealCLM.contDiff.comp hf).mul ((cwave_contDiff L (-m)).of_le (by exact_mod_cast le_top))
  have hGp : BoxPeriodic L fun x => (f x : ℂ) * cwave L (-m) x := fun i x => by simp only [hp i x, cwave_periodic hL (-m) i x]
  have h0 := integral_fderiv_zero (fun i => (hL i).le) hG hGp j
  have hd : ∀ x, fderiv ℝ (fun x => (f x : ℂ) * cwave L (-m) x) x (Pi.single j 1) =
      (pderiv j f x : ℂ) * cwave L (-m) x - I * kappa L m j * ((f x : ℂ) * cwave L (-m) x) := fun x => by
    have h1 : HasDerivAt (fun t : ℝ => Function.update x j t) (Pi.single j 1) (x j) := hasDerivAt_update x j (x j)
    have h2 : HasFDerivAt (fun x => (f x : ℂ) * cwave L (-m) x) (fderiv ℝ (fun x => (f x : ℂ) * cwave L (-m) x) x) (Function.update x j (x j)) := by
      rw [Function.update_eq_self]; exact (hG.differentiable (by simp) x).hasFDerivAt
    have h3 := h2.comp_hasDerivAt (x j) h1
    have h4 : HasDerivAt (fun t => f (Function.update x j t)) (pderiv j f x) (x j) := by
      have : HasFDerivAt f (fderiv ℝ f x) (Function.update x j (x j)) := by
        rw [Function.update_eq_self]; exact (hf.differentiable (by simp) x).hasFDerivAt
      rw [pderiv_eq (hf.differentiable (by simp) x)]
      exact this.comp_hasDerivAt (x j) h1
    have h5 := h4.ofReal_comp.mul (cwave_hasDeriv L (-m) j x)
    rw [h3.unique h5, Function.update_eq_self]
    simp only [kappa, Pi.neg_apply]
    push_cast
    ring
  simp only [hd] at h0
  have c1 : Continuous fun x => (pderiv j f x : ℂ) * cwave L (-m) x :=
    (continuous_ofReal.comp (continuous_pderiv hf j)).mul (cwave_continuous L _)
  have c2 : Continuous fun x => (f x : ℂ) * cwave L (-m) x := hG.continuous
  have c3 : Continuous fun x => I * kappa L m j * ((f x : ℂ) * cwave L (-m) x) := continuous_const.mul c2
  rw [integral_sub c1.integrableOn_Icc c3.integrableOn_Icc, integral_const_mul, sub_eq_zero] at h0
  rw [coef, h0, coef]
  ring

section
variable {d : ℕ} (L : Fin d → ℝ)

theorem coef_sub {f g : (Fin d → ℝ) → ℝ} (hf : Continuous f) (hg : Continuous g) (m : Fin d → ℤ) :
    coef L (fun x => f x - g x) m = coef L f m - coef L g m := by
  have c : ∀ {f : (Fin d → ℝ) → ℝ}, Continuous f → IntegrableOn (fun x => (f x : ℂ) * cwave L (-m) x) (Set.Icc 0 L) := fun hf =>
    ((continuous_ofReal.comp hf).mul (cwave_continuous L _)).integrableOn_Icc
  simp only [coef, ofReal_sub, sub_mul]
  rw [integral_sub (c hf) (c hg), mul_sub]

theorem coef_sum {J : Type*} (s : Finset J) {f : J → (Fin d → ℝ) → ℝ} (hf : ∀ j, Continuous (f j)) (m : Fin d → ℤ) :
    coef L (fun x => ∑ j ∈ s, f j x) m = ∑ j ∈ s, coef L (f j) m := by
  simp only [coef, ofReal_sum, Finset.sum_mul]
  have c : ∀ j, IntegrableOn (fun x => (f j x : ℂ) * cwave L (-m) x) (Set.Icc 0 L) := fun j =>
    ((continuous_ofReal.comp (hf j)).mul (cwave_continuous L _)).integrableOn_Icc
  rw [integral_finset_sum _ fun j _ => c j, Finset.mul_sum]

theorem norm_coef_le (hL : ∀ i, 0 < L i) {f : (Fin d → ℝ) → ℝ} {B : ℝ} (hB : ∀ x ∈ Set.Icc 0 L, |f x| ≤ B) (m : Fin d → ℤ) : ‖coef L f m‖ ≤ B := by
  have hv : volume.real (Set.Icc 0 L) = ∏ i, L i := by
    rw [Measure.real, Real.volume_Icc_pi_toReal (a := 0) (fun i => (hL i).le)]
    simp
  have hpos : 0 < ∏ i, L i := Finset.prod_pos fun i _ => hL i
  have h := norm_setIntegral_le_of_norm_le_const (μ := volume) (s := Set.Icc 0 L) (f := fun x => (f x : ℂ) * cwave L (-m) x) (C := B)
    (by rw [Real.volume_Icc_pi]; exact ENNReal.prod_lt_top fun i _ => ENNReal.ofReal_lt_top)
    (fun x hx => by rw [norm_mul, norm_cwave, mul_one, norm_real, Real.norm_eq_abs]; exact hB x hx)
  rw [coef, norm_mul, norm_inv, norm_real, Real.norm_eq_abs, abs_of_pos hpos]
  rw [hv] at h
  calc (∏ i, L i)⁻¹ * ‖∫ x in Set.Icc 0 L, (f x : ℂ) * cwave L (-m) x‖ ≤ (∏ i, L i)⁻¹ * (B * ∏ i, L i) :=
        mul_le_mul_of_nonneg_left h (inv_nonneg.2 hpos.le)
    _ = B := by field_simp

/-- `f - lap f`. -/
noncomputable def helm (f : (Fin d → ℝ) → ℝ) (x : Fin d → ℝ) : ℝ := f x - ∑ j, pderiv j (pderiv j f) x

theorem _root_.SpectralDNS.Spec.SmoothField.helm {g : ℝ → (Fin d → ℝ) → ℝ} (hg : SmoothField g) : SmoothField fun t => Torus.helm (g t) :=
  ContDiff.sub hg (ContDiff.sum fun j _ => ((hg.pderiv j).pderiv j : ContDiff ℝ ∞ _))

theorem _root_.SpectralDNS.Spec.SmoothField.iterate {g : ℝ → (Fin d → ℝ) → ℝ} (hg : SmoothField g) (s : ℕ) : SmoothField fun t => Torus.helm^[s] (g t) := by
  induction s with
  | zero => exact hg
  | succ s ih => simp only [Function.iterate_succ_apply']; exact ih.helm

theorem _root_.SpectralDNS.Spec.BoxPeriodic.iterate {f : (Fin d → ℝ) → ℝ} (hf : BoxPeriodic L f) (s : ℕ) : BoxPeriodic L (Torus.helm^[s] f) := by
  induction s with
  | zero => exact hf
  | succ s ih =>
    rw [Function.iterate_succ_apply']
    intro i x
    simp only [Torus.helm, ih i x]
    congr 1
    exact Finset.sum_congr rfl fun j _ => ((ih.pderiv j).pderiv j) i x

end

theorem coef_helm {L : Fin (n + 1) → ℝ} (hL : ∀ i, 0 < L i) {f : (Fin (n + 1) → ℝ) → ℝ} (hf : ContDiff ℝ ∞ f) (hp : BoxPeriodic L f)
    (m : Fin (n + 1) → ℤ) : coef L (helm f) m = (1 + ∑ j, (kappa L m j) ^ 2 : ℝ) * coef L f m := by
  have h1 : ∀ j, ContDiff ℝ ∞ (pderiv j f) := fun j => contDiff_pderiv (m := ⊤) (hf.of_le (by simp)) j
  have h2 : ∀ j, ContDiff ℝ ∞ (pderiv j (pderiv j f)) := fun j => contDiff_pderiv (m := ⊤) ((h1 j).of_le (by simp)) j
  have l1 : ∀ {g : (Fin (n + 1) → ℝ) → ℝ}, ContDiff ℝ ∞ g → ContDiff ℝ 1 g := fun h => h.of_le (by exact_mod_cast le_top)
  have : helm f = fun x => f x - ∑ j, pderiv j (pderiv j f) x := rfl
  rw [this, coef_sub L hf.continuous (continuous_finsetSum _ fun j _ => (h2 j).continuous), coef_sum L _ fun j => (h2 j).continuous]
  simp only [coef_pderiv hL (l1 (h1 _)) (hp.pderiv _), coef_pderiv hL (l1 hf) hp]
  push_cast
  rw [add_mul, Finset.sum_mul, one_mul, sub_eq_add_neg, ← Finset.sum_neg_distrib]
  congr 1
  refine Finset.sum_congr rfl fun j _ => ?_
  linear_combination (-(kappa L m j : ℂ) ^ 2 * coef L f m) * I_mul_I

/-- The coefficients of a smooth function decay faster than any power, uniformly in time. -/
theorem coef_decay {L : Fin (n + 1) → ℝ} (hL : ∀ i, 0 < L i) {g : ℝ → (Fin (n + 1) → ℝ) → ℝ} (hg : SmoothField g) (hp : ∀ t, BoxPeriodic L (g t))
    (s : ℕ) (T : ℝ) : ∃ C, 0 ≤ C ∧ ∀ t ∈ Set.Icc 0 T, ∀ m, (1 + ∑ j, (kappa L m j) ^ 2) ^ s * ‖coef L (g t) m‖ ≤ C := by
  have hs := hg.iterate s
  obtain ⟨C, hC⟩ := ((isCompact_Icc (a := (0 : ℝ)) (b := T)).prod (isCompact_Icc (a := (0 : Fin (n + 1) → ℝ)) (b := L))).exists_bound_of_continuousOn
    (ContDiff.continuous hs).continuousOn
  refine ⟨max C 0, le_max_right _ _, fun t ht m => ?_⟩
  have e : ∀ s, coef L (helm^[s] (g t)) m = ((1 + ∑ j, (kappa L m j) ^ 2 : ℝ) : ℂ) ^ s * coef L (g t) m := fun s => by
    induction s with
    | zero => simp
    | succ s ih =>
      rw [Function.iterate_succ_apply', coef_helm hL ((hg.iterate s).space t) ((hp t).iterate L s), ih]
      ring
  have h := norm_coef_le L hL (f := helm^[s] (g t)) (B := max C 0) (fun x hx => (hC (t, x) ⟨ht, hx⟩).trans (le_max_left _ _)) m
  rw [e s, norm_mul, norm_pow, norm_real, Real.norm_eq_abs, abs_of_nonneg (by positivity)] at h
  exact h

end SpectralDNS.Torus

import Verif.Lemmas.BoxSeries
import Verif.Props.Weak
import Mathlib.Analysis.Calculus.ParametricIntegral

/-!
# Truncated Fourier series: orthogonality and error
-/

namespace SpectralDNS.Torus

open Complex Spec Periodic Dealias MeasureTheory
open scoped ContDiff

variable {n : ℕ} (N : Fin (n + 1) → ℕ) (L : Fin (n + 1) → ℝ)

/-- The coefficients of `f` at the modes that are stored and not masked. -/
noncomputable def proj (f : (Fin (n + 1) → ℝ) → ℝ) (k : RModes N) : ℂ := if nyquistMask N k = true then coef L f fun i => waves N i k else 0

theorem proj_unmasked (f : (Fin (n + 1) → ℝ) → ℝ) : Unmasked N (proj N L f) := fun k hk => by simp [proj, hk]

theorem proj_real (f : (Fin (n + 1) → ℝ) → ℝ) : IsReal N (proj N L f) := fun k k' h => by
  have hm : nyquistMask N k' = nyquistMask N k := by
    simp only [nyquistMask, h]
    refine decide_eq_decide.2 (forall_congr' fun i => ?_)
    constructor <;> intro h <;> constructor <;> omega
  simp only [proj, hm]
  split_ifs
  · rw [← coef_neg]
    congr 1
    funext i
    exact h i
  · simp

theorem fn_eq (a : RModes N → ℂ) (x : Fin (n + 1) → ℝ) : fn N L a x = ∑ k, ((rweight N k : ℂ) * a k * cwave L (fun i => waves N i k) x).re := by
  rw [fn, trigField, re_sum]
  rfl

theorem mean_wave (hL : ∀ i, 0 < L i) {f : (Fin (n + 1) → ℝ) → ℝ} (hf : Continuous f) (c : ℂ) (p : Fin (n + 1) → ℤ) :
    boxMean L (fun x => f x * (c * cwave L p x).re) = (c * (starRingEnd ℂ) (coef L f p)).re := by
  have hi : Continuous fun x => c * ((f x : ℂ) * cwave L p x) := continuous_const.mul ((continuous_ofReal.comp hf).mul (cwave_continuous L p))
  have e : ∀ x, f x * (c * cwave L p x).re = RCLike.re (c * ((f x : ℂ) * cwave L p x)) := fun x => by
    rw [mul_left_comm]
    exact (re_ofReal_mul _ _).symm
  rw [← coef_neg, coef, neg_neg, boxMean]
  simp only [e]
  rw [integral_re hi.integrableOn_Icc, integral_const_mul, mul_left_comm, ← ofReal_inv, re_ofReal_mul]
  rfl

theorem mean_fn (hL : ∀ i, 0 < L i) {f : (Fin (n + 1) → ℝ) → ℝ} (hf : Continuous f) {v : RModes N → ℂ} (hv : Unmasked N v) :
    boxMean L (fun x => f x * fn N L v x) = Spec.inner (rweight N) (proj N L f) v := by
  simp only [fn_eq, Finset.mul_sum]
  rw [boxMean_sum]
  swap
  · exact fun k => hf.mul (continuous_re.comp (continuous_const.mul (cwave_continuous L _)))
  refine Finset.sum_congr rfl fun k _ => ?_
  rw [mean_wave L hL hf, mul_assoc, re_ofReal_mul, proj]
  by_cases hk : nyquistMask N k = true
  · rw [if_pos hk, mul_comm (v k)]
  · rw [hv k (by simpa using hk)]
    simp

theorem mean_proj_fn (hN : ∀ i, 0 < N i) (hL : ∀ i, 0 < L i) {f : (Fin (n + 1) → ℝ) → ℝ} (hf : Continuous f) {v : RModes N → ℂ} (hv : Unmasked N v) :
    boxMean L (fun x => fn N L (proj N L f) x * fn N L v x) = boxMean L (fun x => f x * fn N L v x) := by
  rw [mean_fn N L hL hf hv, mean_inner' N L hN hL _ _ (proj_unmasked N L f) hv (proj_real N L f)]

theorem proj_orth (hN : ∀ i, 0 < N i) (hL : ∀ i, 0 < L i) {f : (Fin (n + 1) → ℝ) → ℝ} (hf : Continuous f) {v : RModes N → ℂ} (hv : Unmasked N v) :
    boxMean L (fun x => (f x - fn N L (proj N L f) x) * fn N L v x) = 0 := by
  have hc : ∀ a, Continuous (fn N L a) := fun a => trigField_continuous _ _ _
  simp only [sub_mul]
  rw [boxMean_sub L (hf.fun_mul (hc _)) ((hc _).fun_mul (hc _)), mean_proj_fn N L hN hL hf hv, sub_self]

/-- The wavenumbers resolved by the mesh. -/
def Kept (m : Fin (n + 1) → ℤ) : Prop := ∀ i, -(N i : ℤ) < 2 * m i ∧ 2 * m i < N i

theorem exists_mode (hN : ∀ i, 0 < N i) (m : Fin (n + 1) → ℤ) (hm : Kept N m) (h0 : 0 ≤ m (Fin.last n)) : ∃ k : RModes N, ∀ i, waves N i k = m i := by
  refine ⟨fun i => ⟨if 0 ≤ m i then (m i).toNat else (m i + N i).toNat, ?_⟩, fun i => ?_⟩
  · have h1 := hm i
    have h2 := hN i
    unfold rdim
    by_cases hi : i = Fin.last n
    · subst hi
      rw [if_pos h0, if_pos rfl]
      omega
    · rw [if_neg hi]
      split_ifs <;> omega
  · have h1 := hm i
    simp only [waves]
    by_cases hi : i = Fin.last n
    · subst hi
      rw [if_pos rfl, if_pos h0]
      omega
    · rw [if_neg hi]
      split_ifs <;> omega

theorem proj_kept (hN : ∀ i, 0 < N i) (hL : ∀ i, 0 < L i) {f : (Fin (n + 1) → ℝ) → ℝ} (hf : Continuous f) (m : Fin (n + 1) → ℤ) (hm : Kept N m) :
    coef L (fun x => f x - fn N L (proj N L f) x) m = 0 := by
  have key : ∀ m, Kept N m → 0 ≤ m (Fin.last n) → coef L (fun x => f x - fn N L (proj N L f) x) m = 0 := fun m hm h0 => by
    obtain ⟨k, hk⟩ := exists_mode N hN m hm h0
    have hmask : nyquistMask N k = true := by
      rw [nyquistMask_iff]
      intro i
      rw [hk i]
      exact hm i
    have hc : Continuous fun x => f x - fn N L (proj N L f) x := hf.sub (trigField_continuous _ _ _)
    have hv : ∀ c : ℂ, Unmasked N (Pi.single k c) := fun c l hl => by
      have : l ≠ k := fun h => by rw [h, hmask] at hl; cases hl
      simp [this]
    have e : ∀ c : ℂ, ((rweight N k : ℂ) * c * (starRingEnd ℂ) (coef L (fun x => f x - fn N L (proj N L f) x) m)).re = 0 := fun c => by
      have h1 := proj_orth N L hN hL hf (hv c)
      have h2 : ∀ x, fn N L (Pi.single k c) x = ((rweight N k : ℂ) * c * cwave L m x).re := fun x => by
        rw [fn_eq, Finset.sum_eq_single k]
        · rw [Pi.single_eq_same, show (fun i => waves N i k) = m from funext hk]
        · intro l _ hl; simp [hl]
        · simp
      simp only [h2] at h1
      rw [mean_wave L hL hc] at h1
      exact h1
    have hw : rweight N k ≠ 0 := by unfold rweight; split <;> norm_num
    have e1 := e 1
    have eI := e I
    rw [mul_assoc, re_ofReal_mul] at e1 eI
    have e1 := (mul_eq_zero.1 e1).resolve_left hw
    have eI := (mul_eq_zero.1 eI).resolve_left hw
    apply Complex.ext <;> simp at e1 eI ⊢
    · exact e1
    · exact eI
  rcases le_total 0 (m (Fin.last n)) with h | h
  · exact key m hm h
  · have := key (-m) (fun i => by have := hm i; simp only [Pi.neg_apply]; constructor <;> omega) (by simpa using h)
    rw [coef_neg] at this
    simpa using this

/-- Error of the truncated series in the mean square. -/
theorem proj_error (hN : ∀ i, 0 < N i) (hL : ∀ i, 0 < L i) {f : (Fin (n + 1) → ℝ) → ℝ} (hf : Continuous f) (hp : BoxPeriodic L f) {s : ℕ} {C : ℝ}
    (hC : ∀ m, (1 + ∑ j, (kappa L m j) ^ 2) ^ (n + 1 + s) * ‖coef L f m‖ ≤ C) {K : ℝ} (hK : 0 ≤ K) (hKN : ∀ i, K ≤ Real.pi * N i / L i) :
    boxMean L (fun x => (f x - fn N L (proj N L f) x) ^ 2) ≤ (C / (1 + K ^ 2) ^ s * ∑' m, majorant L m) ^ 2 := by
  have hc : Continuous fun x => f x - fn N L (proj N L f) x := hf.sub (trigField_continuous _ _ _)
  have hcf : Continuous (fn N L (proj N L f)) := trigField_continuous _ _ _
  have hC0 : 0 ≤ C := le_trans (by positivity) (hC 0)
  have hb : ∀ m, (1 + ∑ j, (kappa L m j) ^ 2) ^ s * ‖coef L f m‖ ≤ C * majorant L m := fun m => le_majorant (norm_nonneg _) (hC m)
  have h1 : ∀ m : Fin (n + 1) → ℤ, 1 ≤ 1 + ∑ j, (kappa L m j) ^ 2 := fun m => by
    have : 0 ≤ ∑ j, (kappa L m j) ^ 2 := Finset.sum_nonneg fun j _ => sq_nonneg _
    linarith
  have hs : Summable (coef L f) := by
    refine Summable.of_norm_bounded ((summable_majorant hL).mul_left C) fun m => ?_
    refine le_trans ?_ (hb m)
    exact le_mul_of_one_le_left (norm_nonneg _) (one_le_pow₀ (h1 m))
  refine mean_sq_le hL hf hp hc hs ?_ (Kept N) (proj_kept N L hN hL hf) (summable_majorant hL) (majorant_nonneg L) (by positivity) fun m hm => ?_
  · have h0 := proj_orth N L hN hL hf (proj_unmasked N L f)
    have e : (fun x => (f x - fn N L (proj N L f) x) ^ 2) = fun x => (f x - fn N L (proj N L f) x) * f x -
        (f x - fn N L (proj N L f) x) * fn N L (proj N L f) x := by funext x; ring
    rw [e, boxMean_sub L (hc.fun_mul hf) (hc.fun_mul hcf), h0, sub_zero]
  · have h2 : 1 + K ^ 2 ≤ 1 + ∑ j, (kappa L m j) ^ 2 := by
      unfold Kept at hm
      push Not at hm
      obtain ⟨i, hi⟩ := hm
      have h3 : (kappa L m i) ^ 2 ≤ ∑ j, (kappa L m j) ^ 2 :=
        Finset.single_le_sum (f := fun j => (kappa L m j) ^ 2) (fun j _ => sq_nonneg _) (Finset.mem_univ i)
      have h4 : (N i : ℝ) ≤ 2 * |(m i : ℝ)| := by
        have : (N i : ℤ) ≤ 2 * |m i| := by
          simp only [Pi.neg_apply] at hi
          by_cases hlt : -(N i : ℤ) < 2 * -m i
          · have := hi hlt
            have := neg_le_abs (m i)
            omega
          · have := le_abs_self (m i)
            omega
        exact_mod_cast this
      have h5 : K ≤ |kappa L m i| := by
        refine (hKN i).trans ?_
        have hpi := Real.pi_pos
        rw [kappa, abs_mul, abs_of_pos (div_pos (by positivity) (hL i)), div_mul_eq_mul_div]
        refine div_le_div_of_nonneg_right ?_ (hL i).le
        nlinarith
      have h6 : K ^ 2 ≤ (kappa L m i) ^ 2 := by
        rw [← sq_abs (kappa L m i)]
        exact pow_le_pow_left₀ hK h5 2
      linarith
    rw [div_mul_eq_mul_div, le_div_iff₀ (by positivity), mul_comm]
    exact (mul_le_mul_of_nonneg_right (pow_le_pow_left₀ (by positivity) h2 s) (norm_nonneg _)).trans (hb m)

theorem proj_bound (hL : ∀ i, 0 < L i) {f : (Fin (n + 1) → ℝ) → ℝ} {C : ℝ}
    (hC : ∀ m, (1 + ∑ j, (kappa L m j) ^ 2) ^ (n + 1) * ‖coef L f m‖ ≤ C) (x : Fin (n + 1) → ℝ) :
    |fn N L (proj N L f) x| ≤ 2 * (C * ∑' m, majorant L m) := by
  have hC0 : 0 ≤ C := le_trans (by positivity) (hC 0)
  have hb : ∀ m, ‖coef L f m‖ ≤ C * majorant L m := fun m => by simpa using le_majorant (s := 0) (norm_nonneg _) (hC m)
  have hw : ∀ k, |rweight N k| ≤ 2 := fun k => by unfold rweight; split <;> norm_num
  rw [fn_eq]
  calc |∑ k, ((rweight N k : ℂ) * proj N L f k * cwave L (fun i => waves N i k) x).re|
      ≤ ∑ k, |((rweight N k : ℂ) * proj N L f k * cwave L (fun i => waves N i k) x).re| := Finset.abs_sum_le_sum_abs _ _
    _ ≤ ∑ k, 2 * (C * majorant L fun i => waves N i k) := Finset.sum_le_sum fun k _ => by
        refine (abs_re_le_norm _).trans ?_
        rw [norm_mul, norm_mul, norm_cwave, mul_one, norm_real, Real.norm_eq_abs]
        refine mul_le_mul (hw k) ?_ (norm_nonneg _) (by norm_num)
        rw [proj]
        split_ifs
        · exact hb _
        · rw [norm_zero]; exact mul_nonneg hC0 (majorant_nonneg L _)
    _ = 2 * (C * ∑ k : RModes N, majorant L fun i => waves N i k) := by rw [← Finset.mul_sum, ← Finset.mul_sum]
    _ ≤ 2 * (C * ∑' m, majorant L m) := by
        have hinj : Function.Injective fun (k : RModes N) i => waves N i k := fun k l h => waves_inj N k l fun i => congrFun h i
        have := (summable_majorant hL).sum_le_tsum (Finset.univ.map ⟨_, hinj⟩) fun m _ => majorant_nonneg L m
        rw [Finset.sum_map] at this
        exact mul_le_mul_of_nonneg_left (mul_le_mul_of_nonneg_left this hC0) (by norm_num)

theorem pderiv_proj (hL : ∀ i, 0 < L i) {f : (Fin (n + 1) → ℝ) → ℝ} (hf : ContDiff ℝ 1 f) (hp : BoxPeriodic L f) (j : Fin (n + 1)) :
    pderiv j (fn N L (proj N L f)) = fn N L (proj N L (pderiv j f)) := by
  rw [fn, pderiv_trigField]
  congr 1
  funext k
  simp only [Spec.deriv, proj]
  split_ifs
  · rw [coef_pderiv hL hf hp]; rfl
  · rw [mul_zero]

theorem proj_solenoidal (hL : ∀ i, 0 < L i) {u : Fin (n + 1) → (Fin (n + 1) → ℝ) → ℝ} (hu : ∀ i, ContDiff ℝ 1 (u i)) (hp : ∀ i, BoxPeriodic L (u i))
    (hd : ∀ x, ∑ i, pderiv i (u i) x = 0) : Solenoidal (scaledWaves N L) fun i => proj N L (u i) := fun k => by
  have h : ∑ i, coef L (pderiv i (u i)) (fun i => waves N i k) = 0 := by
    rw [← coef_sum L _ fun i => continuous_pderiv (hu i) i]
    simp only [hd]
    simp [coef]
  simp only [coef_pderiv hL (hu _) (hp _), mul_assoc, ← Finset.mul_sum] at h
  have h := (mul_eq_zero.1 h).resolve_left I_ne_zero
  simp only [dot, at', proj]
  split_ifs
  · exact h
  · simp

theorem fn_periodic (hL : ∀ i, 0 < L i) (a : RModes N → ℂ) : BoxPeriodic L (fn N L a) := fun i x => by
  simp only [fn_eq, cwave_periodic hL _ i x]

theorem fn_contDiff (a : RModes N → ℂ) : ContDiff ℝ ∞ (fn N L a) := by
  rw [show fn N L a = fun x => ∑ k, ((rweight N k : ℂ) * a k * cwave L (fun i => waves N i k) x).re from funext (fn_eq N L a)]
  exact ContDiff.sum fun k _ => reCLM.contDiff.comp (contDiff_const.mul (cwave_contDiff L _))

/-- The derivative in time of a coefficient. -/
theorem coef_hasDeriv {d : ℕ} (L : Fin d → ℝ) {g : ℝ → (Fin d → ℝ) → ℝ} (hg : SmoothField g) (m : Fin d → ℤ) (t : ℝ) :
    HasDerivAt (fun s => coef L (g s) m) (coef L (fun x => _root_.deriv (fun s => g s x) t) m) t := by
  obtain ⟨B, hB⟩ := ((isCompact_Icc (a := t - 1) (b := t + 1)).prod (isCompact_Icc (a := (0 : Fin d → ℝ)) (b := L))).exists_bound_of_continuousOn
    (ContDiff.continuous hg.deriv).continuousOn
  have hd : ∀ s x, HasDerivAt (fun s => g s x) (_root_.deriv (fun s => g s x) s) s := fun s x =>
    ((hg.time x).differentiable (by simp) s).hasDerivAt
  have hc : ∀ s, Continuous fun x => (g s x : ℂ) * cwave L (-m) x := fun s =>
    (continuous_ofReal.comp (hg.space s).continuous).mul (cwave_continuous L _)
  have hc' : Continuous fun x => ((_root_.deriv (fun s => g s x) t : ℝ) : ℂ) * cwave L (-m) x :=
    (continuous_ofReal.comp (hg.deriv.space t).continuous).mul (cwave_continuous L _)
  refine HasDerivAt.const_mul _ ?_
  refine (hasDerivAt_integral_of_dominated_loc_of_deriv_le (μ := volume.restrict (Set.Icc 0 L)) (F := fun s x => (g s x : ℂ) * cwave L (-m) x)
    (F' := fun s x => ((_root_.deriv (fun s => g s x) s : ℝ) : ℂ) * cwave L (-m) x) (bound := fun _ => B) (s := Set.Icc (t - 1) (t + 1))
    (Icc_mem_nhds (by linarith) (by linarith)) (Filter.Eventually.of_forall fun s => (hc s).aestronglyMeasurable) (hc t).integrableOn_Icc
    hc'.aestronglyMeasurable ?_ continuous_const.integrableOn_Icc ?_).2
  · filter_upwards [self_mem_ae_restrict measurableSet_Icc] with x hx s hs
    rw [norm_mul, norm_cwave, mul_one, norm_real]
    exact hB (s, x) ⟨hs, hx⟩
  · exact Filter.Eventually.of_forall fun x s _ => ((hd s x).ofReal_comp).mul_const _

end SpectralDNS.Torus

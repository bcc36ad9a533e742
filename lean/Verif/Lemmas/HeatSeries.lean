import Verif.Spec.StartUp
import Verif.Lemmas.HeatMax
import Verif.Props.LaminarExact
import Mathlib.Analysis.Calculus.SmoothSeries
import Mathlib.Analysis.PSeries

/-!
# The full series of demo/LaminarChannel.py is the start-up flow
-/

namespace SpectralDNS.Laminar

open Real Filter Topology Set

theorem lam_ge (m : ℕ) : (m : ℝ) + 1 ≤ lam m := by
  unfold lam
  have := two_le_pi
  have : (0 : ℝ) ≤ m := Nat.cast_nonneg m
  nlinarith

theorem summable_sq : Summable fun m : ℕ => 1 / lam m ^ 2 := by
  have h : Summable fun m : ℕ => 1 / ((m : ℝ) + 1) ^ 2 := by
    have := (summable_nat_add_iff 1).2 (summable_one_div_nat_pow.2 (le_refl 2))
    simpa using this
  refine h.of_nonneg_of_le (fun m => by have := lam_pos m; positivity) fun m => ?_
  have := lam_ge m
  exact one_div_le_one_div_of_le (by positivity) (pow_le_pow_left₀ (by positivity) this 2)

theorem cube_le (m : ℕ) : 1 / lam m ^ 3 ≤ 1 / lam m ^ 2 := by
  have h1 : 1 ≤ lam m := by have := lam_ge m; have : (0 : ℝ) ≤ m := Nat.cast_nonneg m; linarith
  exact one_div_le_one_div_of_le (by positivity) (pow_le_pow_right₀ h1 (by norm_num))

theorem summable_cube : Summable fun m : ℕ => 1 / lam m ^ 3 :=
  summable_sq.of_nonneg_of_le (fun m => by have := lam_pos m; positivity) cube_le

theorem exp_le_inv {s : ℝ} (hs : 0 < s) : exp (-s) ≤ 1 / s := by
  rw [exp_neg, ← one_div]
  exact one_div_le_one_div_of_le hs (by linarith [add_one_le_exp s])

theorem mode_bound {nu t : ℝ} (hnu : 0 ≤ nu) (ht : 0 ≤ t) (x : ℝ) (m : ℕ) : ‖mode nu t x m‖ ≤ 1 / lam m ^ 3 := by
  have hl := lam_pos m
  rw [norm_eq_abs, mode, abs_div, abs_of_pos (pow_pos hl 3)]
  refine div_le_div_of_nonneg_right ?_ (pow_pos hl 3).le
  rw [abs_mul, abs_mul, abs_pow, abs_neg, abs_one, one_pow, one_mul, abs_of_pos (exp_pos _)]
  refine mul_le_one₀ (abs_cos_le_one _) (exp_pos _).le (exp_le_one_iff.2 ?_)
  have : 0 ≤ nu * lam m ^ 2 * t := by positivity
  linarith

/-- Decay makes up for two powers of the frequency. -/
theorem mode_decay {nu t : ℝ} (hnu : 0 < nu) (ht : 0 < t) (x : ℝ) (m : ℕ) : ‖lam m ^ 2 * mode nu t x m‖ ≤ 1 / (nu * t) * (1 / lam m ^ 3) := by
  have hl := lam_pos m
  rw [norm_eq_abs, mode, abs_mul, abs_div, abs_of_pos (pow_pos hl 3), abs_of_pos (pow_pos hl 2)]
  rw [abs_mul, abs_mul, abs_pow, abs_neg, abs_one, one_pow, one_mul, abs_of_pos (exp_pos _)]
  have h1 : exp (-nu * lam m ^ 2 * t) ≤ 1 / (nu * lam m ^ 2 * t) := by
    rw [show -nu * lam m ^ 2 * t = -(nu * lam m ^ 2 * t) by ring]
    exact exp_le_inv (by positivity)
  have h2 : |cos (lam m * x)| * exp (-nu * lam m ^ 2 * t) ≤ 1 / (nu * lam m ^ 2 * t) :=
    (mul_le_of_le_one_left (exp_pos _).le (abs_cos_le_one _)).trans h1
  calc lam m ^ 2 * (|cos (lam m * x)| * exp (-nu * lam m ^ 2 * t) / lam m ^ 3) ≤ lam m ^ 2 * (1 / (nu * lam m ^ 2 * t) / lam m ^ 3) := by gcongr
    _ = _ := by field_simp

/-- The series with all its terms. -/
noncomputable def series (nu Re t x : ℝ) : ℝ := 1 / (nu * Re) * (1 - x ^ 2) - 4 / (nu * Re) * ∑' m, mode nu t x m

theorem series_limit {nu t : ℝ} (hnu : 0 ≤ nu) (ht : 0 ≤ t) (Re x : ℝ) : Tendsto (fun M => exact nu x Re t M) atTop (𝓝 (series nu Re t x)) := by
  have hs : Summable fun m => mode nu t x m := Summable.of_norm_bounded summable_cube (mode_bound hnu ht x)
  simp only [exact_eq]
  exact ((hs.hasSum.tendsto_sum_nat.comp (tendsto_id.const_mul_atTop' (show 0 < 2 by norm_num))).const_mul _).const_sub _

theorem series_solves {nu Re : ℝ} (hnu : 0 < nu) (hRe : Re ≠ 0) : Spec.StartUp nu Re (series nu Re) where
  cont := by
    have h : ContinuousOn (fun p : ℝ × ℝ => ∑' m, mode nu p.1 p.2 m) (Ici 0 ×ˢ Icc (-1) 1) := by
      refine continuousOn_tsum (fun m => Continuous.continuousOn ?_) summable_cube fun m p hp => mode_bound hnu.le hp.1 _ _
      unfold mode
      exact ((continuous_const.mul (continuous_cos.comp (continuous_const.mul continuous_snd))).mul
        (continuous_exp.comp (continuous_const.mul continuous_fst))).div_const _
    exact ((continuous_const.mul (continuous_const.sub (continuous_snd.pow 2))).continuousOn).sub (continuousOn_const.mul h)
  rest x hx := tendsto_nhds_unique (series_limit hnu.le le_rfl Re x) (C74_exact_start nu Re x hx.1 hx.2)
  walls t _ := by simp [series, mode, cos_lam]
  eqn := by
    refine ⟨fun t x => 1 / (nu * Re) * (-(2 * x)) - 4 / (nu * Re) *
        ∑' m, (-1) ^ m * (-sin (lam m * x) * lam m) * exp (-nu * lam m ^ 2 * t) / lam m ^ 3,
      fun t x => 1 / (nu * Re) * (-2) - 4 / (nu * Re) * ∑' m, -lam m ^ 2 * mode nu t x m, fun t ht x _ => ⟨?_, ?_, ?_⟩⟩
    · have h : HasDerivAt (fun x : ℝ => 1 - x ^ 2) (-(2 * x)) x := by simpa using (hasDerivAt_pow 2 x).const_sub 1
      refine (h.const_mul _).sub (HasDerivAt.const_mul _ ?_)
      refine hasDerivAt_tsum summable_sq (fun m y => mode_dx nu t y m) (fun m y => ?_) (Summable.of_norm_bounded summable_cube (mode_bound hnu.le ht.le 0)) x
      have hl := lam_pos m
      rw [norm_eq_abs, abs_div, abs_of_pos (pow_pos hl 3), abs_mul, abs_mul, abs_pow, abs_neg, abs_one, one_pow, one_mul, abs_mul, abs_neg, abs_of_pos hl,
        abs_of_pos (exp_pos _)]
      have h0 : 0 ≤ nu * lam m ^ 2 * t := by positivity
      have h1 : exp (-nu * lam m ^ 2 * t) ≤ 1 := exp_le_one_iff.2 (by linarith)
      have h2 : |sin (lam m * y)| * lam m * exp (-nu * lam m ^ 2 * t) ≤ lam m :=
        (mul_le_of_le_one_right (by positivity) h1).trans (mul_le_of_le_one_left hl.le (abs_sin_le_one _))
      refine (div_le_div_of_nonneg_right h2 (pow_pos hl 3).le).trans (le_of_eq ?_)
      field_simp
    · have h : HasDerivAt (fun x : ℝ => -(2 * x)) (-2) x := by
        have := ((hasDerivAt_id x).const_mul (2 : ℝ)).neg
        rw [mul_one] at this
        exact this
      refine (h.const_mul _).sub (HasDerivAt.const_mul _ ?_)
      refine hasDerivAt_tsum (summable_cube.mul_left (1 / (nu * t))) (fun m y => mode_dxx nu t y m) (fun m y => ?_) (y₀ := 0) ?_ x
      · rw [neg_mul, norm_neg]; exact mode_decay hnu ht y m
      · simp
    · have hd : HasDerivAt (fun s => ∑' m, mode nu s x m) (∑' m, nu * (-lam m ^ 2 * mode nu t x m)) t := by
        refine hasDerivAt_tsum_of_isPreconnected (t := Ioi (t / 2)) (y₀ := t) (summable_cube.mul_left (nu * (1 / (nu * (t / 2))))) isOpen_Ioi isPreconnected_Ioi
          (fun m s _ => mode_dt nu s x m) (fun m s hs => ?_) (show t / 2 < t by linarith)
          (Summable.of_norm_bounded summable_cube (mode_bound hnu.le ht.le x)) (show t / 2 < t by linarith)
        have hs : t / 2 < s := hs
        have hs0 : 0 < s := by linarith
        rw [norm_mul, neg_mul, norm_neg, norm_eq_abs, abs_of_pos hnu, mul_assoc nu]
        refine mul_le_mul_of_nonneg_left ((mode_decay hnu hs0 x m).trans ?_) hnu.le
        have hl := lam_pos m
        refine mul_le_mul_of_nonneg_right (one_div_le_one_div_of_le (by positivity) (mul_le_mul_of_nonneg_left hs.le hnu.le)) (by positivity)
      have h := (hd.const_mul (4 / (nu * Re))).const_sub (1 / (nu * Re) * (1 - x ^ 2))
      refine h.congr_deriv ?_
      rw [tsum_mul_left]
      field_simp
      ring

end SpectralDNS.Laminar

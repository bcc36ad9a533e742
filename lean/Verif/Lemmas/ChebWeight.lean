import Mathlib.Analysis.SpecialFunctions.Trigonometric.Chebyshev.Orthogonality
import Mathlib.Algebra.Polynomial.Sequence
import Mathlib.Analysis.Calculus.Deriv.Polynomial

/-! Positivity of the second and fourth derivative in the Chebyshev weight. -/

namespace SpectralDNS.ChebWeight

open Polynomial Polynomial.Chebyshev MeasureTheory Real

/-- Integral over `[-1, 1]` with the Chebyshev weight. -/
noncomputable def wint : ℝ[X] →ₗ[ℝ] ℝ where
  toFun p := ∫ x, p.eval x ∂measureT
  map_add' p q := by
    simp only [eval_add]
    exact integral_add (integrable_measureT p.continuous.continuousOn) (integrable_measureT q.continuous.continuousOn)
  map_smul' c p := by
    simp only [eval_smul, smul_eq_mul, RingHom.id_apply]
    exact integral_const_mul _ _

theorem wint_cos (p : ℝ[X]) : wint p = ∫ θ in 0..π, p.eval (cos θ) := integral_measureT_eq_integral_cos

theorem cont_cos (p : ℝ[X]) : Continuous fun θ : ℝ => p.eval (cos θ) := p.continuous.comp continuous_cos

theorem wint_nonneg (p : ℝ[X]) (h : ∀ x, -1 ≤ x → x ≤ 1 → 0 ≤ p.eval x) : 0 ≤ wint p := by
  rw [wint_cos]
  exact intervalIntegral.integral_nonneg pi_nonneg fun θ _ => h _ (neg_one_le_cos θ) (cos_le_one θ)

theorem wint_sq_pos (p : ℝ[X]) (h : p ≠ 0) : 0 < wint (p * p) := by
  rw [wint_cos]
  obtain ⟨x, hx, h0⟩ : ∃ x ∈ Set.Ioo (-1 : ℝ) 1, p.eval x ≠ 0 := by
    by_contra hc
    push Not at hc
    refine h (Polynomial.eq_zero_of_infinite_isRoot p ?_)
    exact (Set.Ioo_infinite (by norm_num : (-1 : ℝ) < 1)).mono fun x hx => hc x hx
  refine intervalIntegral.integral_pos pi_pos (cont_cos _).continuousOn (fun θ _ => ?_) ⟨arccos x, ⟨arccos_nonneg x, arccos_le_pi x⟩, ?_⟩
  · rw [eval_mul]; exact mul_self_nonneg _
  · rw [cos_arccos hx.1.le hx.2.le, eval_mul]
    exact mul_self_pos.2 h0

/-- Integration by parts. -/
theorem wint_parts (q : ℝ[X]) : wint ((1 - X ^ 2) * derivative q - X * q) = 0 := by
  rw [wint_cos]
  have h : ∀ θ : ℝ, HasDerivAt (fun θ => -(sin θ * q.eval (cos θ))) (((1 - X ^ 2) * derivative q - X * q).eval (cos θ)) θ := by
    intro θ
    have h1 := ((hasDerivAt_sin θ).mul ((Polynomial.hasDerivAt q (cos θ)).comp θ (hasDerivAt_cos θ))).neg
    refine h1.congr_deriv ?_
    have : sin θ * sin θ = 1 - cos θ ^ 2 := by rw [← sin_sq_add_cos_sq θ]; ring
    simp only [eval_sub, eval_mul, eval_one, eval_pow, eval_X, Function.comp_apply]
    rw [← this]
    ring
  rw [intervalIntegral.integral_eq_sub_of_hasDerivAt (fun θ _ => h θ) ((cont_cos _).intervalIntegrable _ _)]
  simp

/-- The exact divergence of integration by parts. -/
noncomputable def parts (q : ℝ[X]) : ℝ[X] := (1 - X ^ 2) * derivative q - X * q

theorem wint_ofNat (n : ℕ) [n.AtLeastTwo] (a : ℝ[X]) : wint (ofNat(n) * a) = ofNat(n) * wint a := by
  rw [← smul_eq_mul (OfNat.ofNat n : ℝ), ← map_smul, smul_eq_C_mul, map_ofNat]

theorem second_identity (p : ℝ[X]) : -2 * (derivative (derivative ((1 - X ^ 2) * p)) * ((1 - X ^ 2) * p)) =
    p * p + (2 * ((1 - X ^ 2) * (p * p)) + 2 * ((1 - X ^ 2) ^ 2 * (derivative p * derivative p)))
    + parts (X * (p * p) - 2 * ((1 - X ^ 2) * (p * derivative p))) := by
  refine Polynomial.funext fun x => ?_
  simp [parts]
  ring

theorem fourth_identity (p : ℝ[X]) :
    2 * (derivative (derivative (derivative (derivative ((1 - X ^ 2) ^ 2 * p)))) * ((1 - X ^ 2) ^ 2 * p)) =
    9 * (p * p) + (24 * ((1 - X ^ 2) ^ 2 * (p * p)) + (4 + 24 * (1 - X ^ 2)) * ((1 - X ^ 2) ^ 2 * (derivative p * derivative p))
      + 2 * ((1 - X ^ 2) ^ 4 * (derivative (derivative p) * derivative (derivative p))))
    + parts (2 * (1 - X ^ 2) ^ 3 * (p * derivative (derivative (derivative p))) - 18 * X * (1 - X ^ 2) ^ 2 * (p * derivative (derivative p))
        - 2 * (1 - X ^ 2) ^ 3 * (derivative p * derivative (derivative p)) + (-30 + 66 * X ^ 2 - 36 * X ^ 4) * (p * derivative p)
        + 2 * X * (1 - X ^ 2) ^ 2 * (derivative p * derivative p) + (15 * X - 6 * X ^ 3) * (p * p)) := by
  refine Polynomial.funext fun x => ?_
  simp [parts, derivative_pow]
  ring

theorem wint_add_parts (a b q : ℝ[X]) (h : a = b + parts q) : wint a = wint b := by
  rw [h, map_add, parts, wint_parts, add_zero]

/-- `-∫ u'' u w ≥ 1/2 ∫ p² w` for `u = (1 - x²) p`. -/
theorem second_coercive (p : ℝ[X]) :
    wint (p * p) ≤ -2 * wint (derivative (derivative ((1 - X ^ 2) * p)) * ((1 - X ^ 2) * p)) := by
  have h := wint_add_parts _ _ _ (second_identity p)
  rw [map_add] at h
  rw [neg_mul, map_neg, wint_ofNat] at h
  rw [neg_mul, h]
  have : 0 ≤ wint (2 * ((1 - X ^ 2) * (p * p)) + 2 * ((1 - X ^ 2) ^ 2 * (derivative p * derivative p))) := by
    refine wint_nonneg _ fun x h1 h2 => ?_
    simp only [eval_add, eval_mul, eval_sub, eval_pow, eval_X, eval_one, eval_ofNat]
    have : 0 ≤ 1 - x ^ 2 := by nlinarith
    have := mul_self_nonneg (eval x p)
    have := mul_self_nonneg (eval x (derivative p))
    positivity
  linarith

/-- `∫ u'''' u w ≥ 9/2 ∫ p² w` for `u = (1 - x²)² p`. -/
theorem fourth_coercive (p : ℝ[X]) :
    9 * wint (p * p) ≤ 2 * wint (derivative (derivative (derivative (derivative ((1 - X ^ 2) ^ 2 * p)))) * ((1 - X ^ 2) ^ 2 * p)) := by
  have h := wint_add_parts _ _ _ (fourth_identity p)
  rw [map_add] at h
  rw [← wint_ofNat, ← wint_ofNat, h]
  have : 0 ≤ wint (24 * ((1 - X ^ 2) ^ 2 * (p * p)) + (4 + 24 * (1 - X ^ 2)) * ((1 - X ^ 2) ^ 2 * (derivative p * derivative p))
      + 2 * ((1 - X ^ 2) ^ 4 * (derivative (derivative p) * derivative (derivative p)))) := by
    refine wint_nonneg _ fun x h1 h2 => ?_
    simp only [eval_add, eval_mul, eval_sub, eval_pow, eval_X, eval_one, eval_ofNat]
    have : 0 ≤ 1 - x ^ 2 := by nlinarith
    have := mul_self_nonneg (eval x p)
    have := mul_self_nonneg (eval x (derivative p))
    have := mul_self_nonneg (eval x (derivative (derivative p)))
    positivity
  linarith

end SpectralDNS.ChebWeight

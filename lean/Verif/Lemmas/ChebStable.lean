import Verif.Lemmas.Galerkin
import Verif.Lemmas.LegError

/-! # Stability of Chebyshev-Galerkin approximations in the maximum norm -/

namespace SpectralDNS.Channel

open Polynomial Finset Real ChebWeight

/-- `∫ (1 - x²) u'² w ≤ -4 ∫ u'' u w` for functions that are zero at the ends. -/
theorem gradient_bound (u : ℝ[X]) (h1 : u.eval 1 = 0) (h2 : u.eval (-1) = 0) :
    wint ((1 - X ^ 2) * (derivative u * derivative u)) ≤ -4 * wint (derivative (derivative u) * u) := by
  obtain ⟨p, rfl⟩ := s_dvd u h1 h2
  have h := wint_add_parts _ _ _ (second_identity p)
  rw [neg_mul, map_neg, wint_ofNat] at h
  have hn : 0 ≤ wint (2 * (p * p + (2 * ((1 - X ^ 2) * (p * p)) + 2 * ((1 - X ^ 2) ^ 2 * (derivative p * derivative p)))) -
      (1 - X ^ 2) * (derivative ((1 - X ^ 2) * p) * derivative ((1 - X ^ 2) * p))) := by
    refine wint_nonneg _ fun x a1 a2 => ?_
    simp only [eval_sub, eval_add, eval_mul, eval_pow, eval_X, eval_one, eval_ofNat, derivative_mul, derivative_sub, derivative_one, derivative_X_pow]
    simp
    generalize eval x p = a
    generalize eval x (derivative p) = b
    have hs0 : 0 ≤ 1 - x ^ 2 := by nlinarith
    have hs1 : 1 - x ^ 2 ≤ 1 := by nlinarith [sq_nonneg x]
    have hx : x ^ 2 = 1 - (1 - x ^ 2) := by ring
    generalize 1 - x ^ 2 = s at *
    have e : (-(2 * x * a) + s * b) ^ 2 ≤ 2 * (4 * x ^ 2 * a ^ 2) + 2 * (s ^ 2 * b ^ 2) := by nlinarith [sq_nonneg (-(2 * x * a) - s * b)]
    have e2 := mul_le_mul_of_nonneg_left e hs0
    rw [hx] at e2
    have e3 : 0 ≤ a ^ 2 * (1 - 2 * s) ^ 2 := by positivity
    have e4 : s * (s ^ 2 * b ^ 2) ≤ s ^ 2 * b ^ 2 := by nlinarith [mul_nonneg (sq_nonneg s) (sq_nonneg b)]
    nlinarith [mul_nonneg hs0 (sq_nonneg a), mul_nonneg (sq_nonneg s) (sq_nonneg b)]
  rw [map_sub, wint_ofNat, ← h] at hn
  linarith

/-- The values of such a function, by the same integral. -/
theorem value_bound (u : ℝ[X]) (h1 : u.eval 1 = 0) {t x : ℝ} (ht : 0 < t) (hx : x ∈ Set.Icc (-1 : ℝ) 1) :
    |u.eval x| ≤ (t * π + wint ((1 - X ^ 2) * (derivative u * derivative u)) / t) / 2 := by
  obtain ⟨θ, hθ, rfl⟩ : ∃ θ ∈ Set.Icc 0 π, cos θ = x := ⟨arccos x, ⟨arccos_nonneg x, arccos_le_pi x⟩, cos_arccos hx.1 hx.2⟩
  have hd : ∀ y : ℝ, HasDerivAt (fun y => u.eval (cos y)) ((derivative u).eval (cos y) * -sin y) y := fun y => (u.hasDerivAt (cos y)).comp y (hasDerivAt_cos y)
  have hc : Continuous fun y => (derivative u).eval (cos y) * -sin y := (cont_cos _).mul continuous_sin.neg
  have hint : ∀ c d : ℝ, IntervalIntegrable (fun y => t / 2 + ((derivative u).eval (cos y) * -sin y) ^ 2 / (2 * t)) MeasureTheory.volume c d := fun c d =>
    (continuous_const.add ((hc.pow 2).div_const _)).intervalIntegrable _ _
  have e := intervalIntegral.integral_eq_sub_of_hasDerivAt (a := 0) (b := θ) (fun y _ => hd y) (hc.intervalIntegrable _ _)
  rw [cos_zero, h1, sub_zero] at e
  rw [← e]
  calc |∫ y in (0 : ℝ)..θ, (derivative u).eval (cos y) * -sin y| ≤ ∫ y in (0 : ℝ)..θ, |(derivative u).eval (cos y) * -sin y| :=
        intervalIntegral.abs_integral_le_integral_abs hθ.1
    _ ≤ ∫ y in (0 : ℝ)..θ, (t / 2 + ((derivative u).eval (cos y) * -sin y) ^ 2 / (2 * t)) := by
      refine intervalIntegral.integral_mono_on hθ.1 (hc.abs.intervalIntegrable _ _) (hint _ _) fun y _ => ?_
      generalize (derivative u).eval (cos y) * -sin y = z
      rw [div_add_div _ _ two_ne_zero (by positivity), le_div_iff₀ (by positivity)]
      nlinarith [sq_nonneg (|z| - t), sq_abs z]
    _ ≤ ∫ y in (0 : ℝ)..π, (t / 2 + ((derivative u).eval (cos y) * -sin y) ^ 2 / (2 * t)) := by
      refine intervalIntegral.integral_mono_interval le_rfl hθ.1 hθ.2 ?_ (hint _ _)
      exact Filter.Eventually.of_forall fun y => by
        have := sq_nonneg ((derivative u).eval (cos y) * -sin y)
        show 0 ≤ t / 2 + ((derivative u).eval (cos y) * -sin y) ^ 2 / (2 * t)
        positivity
    _ = _ := by
      have hsq : Continuous fun y => ((derivative u).eval (cos y) * -sin y) ^ 2 / (2 * t) := (hc.pow 2).div_const _
      rw [intervalIntegral.integral_add (continuous_const.intervalIntegrable _ _) (hsq.intervalIntegrable _ _), wint_cos]
      have e2 : ∀ y : ℝ, ((derivative u).eval (cos y) * -sin y) ^ 2 = eval (cos y) ((1 - X ^ 2) * (derivative u * derivative u)) := fun y => by
        simp only [eval_mul, eval_sub, eval_one, eval_pow, eval_X]
        rw [← sin_sq]; ring
      simp only [e2]
      rw [intervalIntegral.integral_const, intervalIntegral.integral_div]
      simp only [smul_eq_mul, sub_zero]
      field_simp

theorem weight_total (q : Quad) (N : ℕ) (hN : 2 ≤ N) : ∑ j ∈ range N, quadWeight q N j = π := by
  have h := quad_exact q N hN 1 (by rw [degree_one]; exact_mod_cast (by omega : 0 < 2 * (N - 1)))
  rw [quadrature_apply, wint_cos] at h
  simpa using h

theorem point_Icc (q : Quad) (N j : ℕ) : quadPoint q N j ∈ Set.Icc (-1 : ℝ) 1 := by
  cases q <;> exact ⟨neg_one_le_cos _, cos_le_one _⟩

/-- Galerkin approximations of `alfa u - u'' = g` with zero boundary values are bounded by `4 pi^2` times the largest value of `g` at the points, whatever the
number of points, the kind of quadrature and `alfa ≥ 0`. -/
theorem helmholtz_bound (q : Quad) (N : ℕ) (hN : 2 ≤ N) {alfa B : ℝ} (ha : 0 ≤ alfa) (hB : 0 < B) (g : ℕ → ℝ) (hg : ∀ j < N, |g j| ≤ B) (u : ℝ[X])
    (hu : u.degree < N) (h1 : u.eval 1 = 0) (h2 : u.eval (-1) = 0)
    (h : ∑ j ∈ range N, quadWeight q N j * ((alfa * u.eval (quadPoint q N j) - (derivative (derivative u)).eval (quadPoint q N j)) * u.eval (quadPoint q N j)) =
      ∑ j ∈ range N, quadWeight q N j * (g j * u.eval (quadPoint q N j))) {x : ℝ} (hx : x ∈ Set.Icc (-1 : ℝ) 1) : |u.eval x| ≤ 4 * π ^ 2 * B := by
  set D := wint ((1 - X ^ 2) * (derivative u * derivative u)) with hD
  have hpi := pi_pos
  have e1 : -wint (derivative (derivative u) * u) ≤ ∑ j ∈ range N, quadWeight q N j * (g j * u.eval (quadPoint q N j)) := by
    rw [← h]
    have e := quad_exact_form q N 2 hN (by norm_num) u u hu hu
    simp only [Function.iterate_succ, Function.iterate_zero, Function.comp_apply, id_eq] at e
    rw [← e, quadrature_apply, ← sum_neg_distrib]
    refine sum_le_sum fun j _ => ?_
    rw [eval_mul, ← mul_neg]
    refine mul_le_mul_of_nonneg_left ?_ (quadWeight_pos q N hN j).le
    nlinarith [mul_nonneg ha (mul_self_nonneg (u.eval (quadPoint q N j)))]
  have e2 : ∑ j ∈ range N, quadWeight q N j * (g j * u.eval (quadPoint q N j)) ≤ π * (B * ((4 * π * B * π + D / (4 * π * B)) / 2)) := by
    have hv : ∀ j, |u.eval (quadPoint q N j)| ≤ (4 * π * B * π + D / (4 * π * B)) / 2 := fun j => value_bound u h1 (by positivity) (point_Icc q N j)
    generalize (4 * π * B * π + D / (4 * π * B)) / 2 = K at hv
    rw [← weight_total q N hN, sum_mul]
    refine sum_le_sum fun j hj => mul_le_mul_of_nonneg_left ?_ (quadWeight_pos q N hN j).le
    refine (le_abs_self _).trans ?_
    rw [abs_mul]
    exact mul_le_mul (hg j (mem_range.1 hj)) (hv j) (abs_nonneg _) hB.le
  have e3 := gradient_bound u h1 h2
  have e4 : D ≤ 16 * π ^ 3 * B ^ 2 := by
    have : π * (B * ((4 * π * B * π + D / (4 * π * B)) / 2)) = 2 * π ^ 3 * B ^ 2 + D / 8 := by
      field_simp
      ring
    rw [this] at e2
    linarith
  refine (value_bound u h1 (t := 4 * π * B) (by positivity) hx).trans ?_
  rw [← hD]
  have : D / (4 * π * B) ≤ 4 * π ^ 2 * B := by
    rw [div_le_iff₀ (by positivity)]
    nlinarith
  nlinarith

end SpectralDNS.Channel

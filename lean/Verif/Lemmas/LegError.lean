import Mathlib.Analysis.Calculus.Taylor
import Verif.Lemmas.GaussRule
import Verif.Props.LegPoisson
import Mathlib.Analysis.Convex.Deriv

/-! # Stability of the Galerkin approximation in the maximum norm, and polynomials with prescribed second derivative -/

namespace SpectralDNS.Leg

open Polynomial Finset Sandbox

variable {n m : ℕ} {pts w : ℕ → ℝ}

theorem node_lt (hm : 1 ≤ m) (i : ℕ) : node m i < node m (i + 1) := by
  have : (0 : ℝ) < m := by exact_mod_cast hm
  unfold node
  push_cast
  have : 2 * (i : ℝ) / m < 2 * (i + 1) / m := by gcongr; linarith
  linarith

theorem node_sub (i : ℕ) : node m (i + 1) - node m i = 2 / m := by
  unfold node
  push_cast
  ring

theorem point_mem (hm : 1 ≤ m) (hR : Rule n pts w) (i : ℕ) {j : ℕ} (hj : j ≤ n) : point m pts i j ∈ Set.Icc (node m i) (node m (i + 1)) := by
  have hm0 : (0 : ℝ) < m := by exact_mod_cast hm
  obtain ⟨h1, h2⟩ := hR.inside hj
  unfold point
  have h3 := node_sub (m := m) i
  have h4 : 0 ≤ (1 + pts j) / m := div_nonneg (by linarith) hm0.le
  have h5 : (1 + pts j) / m ≤ 2 / m := by gcongr; linarith
  exact ⟨by linarith, by linarith⟩

theorem node_le_one (hm : 1 ≤ m) {i : ℕ} (hi : i ≤ m) : -1 ≤ node m i ∧ node m i ≤ 1 := by
  have hm0 : (0 : ℝ) < m := by exact_mod_cast hm
  have hi' : (i : ℝ) ≤ m := by exact_mod_cast hi
  unfold node
  have h1 : 0 ≤ 2 * (i : ℝ) / m := by positivity
  have h2 : 2 * (i : ℝ) / m ≤ 2 := by rw [div_le_iff₀ hm0]; linarith
  exact ⟨by linarith, by linarith⟩

/-- The change of a polynomial over an interval, by its energy. -/
theorem variation (p : ℝ[X]) {a b x t : ℝ} (hx : x ∈ Set.Icc a b) (ht : 0 < t) :
    |p.eval x - p.eval a| ≤ t / 2 * (b - a) + (∫ y in a..b, (derivative p).eval y ^ 2) / (2 * t) := by
  have hc := Polynomial.continuous (derivative p)
  have hab : a ≤ b := hx.1.trans hx.2
  have hint : ∀ c d : ℝ, IntervalIntegrable (fun y => t / 2 + (derivative p).eval y ^ 2 / (2 * t)) MeasureTheory.volume c d := fun c d =>
    (continuous_const.add ((hc.pow 2).div_const _)).intervalIntegrable _ _
  rw [← integral_derivative]
  calc |∫ y in a..x, (derivative p).eval y| ≤ ∫ y in a..x, |(derivative p).eval y| := intervalIntegral.abs_integral_le_integral_abs hx.1
    _ ≤ ∫ y in a..x, (t / 2 + (derivative p).eval y ^ 2 / (2 * t)) := by
      refine intervalIntegral.integral_mono_on hx.1 (hc.abs.intervalIntegrable _ _) (hint _ _) fun y _ => ?_
      rw [div_add_div _ _ two_ne_zero (by positivity), le_div_iff₀ (by positivity)]
      nlinarith [sq_nonneg (|(derivative p).eval y| - t), sq_abs ((derivative p).eval y)]
    _ ≤ ∫ y in a..b, (t / 2 + (derivative p).eval y ^ 2 / (2 * t)) := by
      refine intervalIntegral.integral_mono_interval le_rfl hx.1 hx.2 ?_ (hint _ _)
      exact Filter.Eventually.of_forall fun y => by
        have := sq_nonneg ((derivative p).eval y)
        show 0 ≤ t / 2 + (derivative p).eval y ^ 2 / (2 * t)
        positivity
    _ = _ := by
      have hsq : Continuous fun y => (derivative p).eval y ^ 2 / (2 * t) := (hc.pow 2).div_const _
      rw [intervalIntegral.integral_add (continuous_const.intervalIntegrable _ _) (hsq.intervalIntegrable _ _)]
      simp [mul_comm]
      ring

/-- Galerkin approximations with zero boundary values are bounded by the data, with a constant that depends neither on the degree nor on the number of
domains nor on the wavenumber. -/
theorem galerkin_bound (hm : 1 ≤ m) (hR : Rule n pts w) {kx B : ℝ} {g : ℕ → ℕ → ℝ} {v : ℕ → ℝ[X]} (h : Galerkin n m pts w kx 0 0 g v) (hB : 0 < B)
    (hg : ∀ i < m, ∀ j ≤ n, |g i j| ≤ B) : ∀ i < m, ∀ x ∈ Set.Icc (node m i) (node m (i + 1)), |(v i).eval x| ≤ 4 * B := by
  have hm0 : (0 : ℝ) < m := by exact_mod_cast hm
  set e : ℕ → ℝ := fun i => ∫ y in node m i..node m (i + 1), (derivative (v i)).eval y ^ 2 with he
  have he0 : ∀ i, 0 ≤ e i := fun i => intervalIntegral.integral_nonneg (node_lt hm i).le fun y _ => sq_nonneg _
  have hv : ∀ t, 0 < t → ∀ i < m, ∀ x ∈ Set.Icc (node m i) (node m (i + 1)), |(v i).eval x - (v i).eval (node m i)| ≤ t / m + e i / (2 * t) := fun t ht i _ x hx => by
    refine (variation (v i) hx ht).trans (le_of_eq ?_)
    rw [node_sub]
    ring
  have hstart : ∀ t, 0 < t → ∀ i < m, |(v i).eval (node m i)| ≤ ∑ l ∈ range i, (t / m + e l / (2 * t)) := fun t ht i => by
    induction i with
    | zero =>
      intro _
      rw [node_zero, h.left]; simp
    | succ i ih =>
      intro hi
      rw [sum_range_succ, ← h.pieces.cont i hi]
      have h1 := hv t ht i (by omega) (node m (i + 1)) ⟨(node_lt hm i).le, le_rfl⟩
      have h2 := ih (by omega)
      have h3 := abs_sub_abs_le_abs_sub ((v i).eval (node m (i + 1))) ((v i).eval (node m i))
      linarith
  have hall : ∀ t, 0 < t → ∀ i < m, ∀ x ∈ Set.Icc (node m i) (node m (i + 1)), |(v i).eval x| ≤ t + (∑ l ∈ range m, e l) / (2 * t) := fun t ht i hi x hx => by
    have h1 := hv t ht i hi x hx
    have h2 := hstart t ht i hi
    have h3 := abs_sub_abs_le_abs_sub ((v i).eval x) ((v i).eval (node m i))
    have h4 : ∑ l ∈ range (i + 1), (t / m + e l / (2 * t)) ≤ ∑ l ∈ range m, (t / m + e l / (2 * t)) :=
      sum_le_sum_of_subset_of_nonneg (range_subset_range.2 hi) fun l _ _ => by
        have := he0 l
        positivity
    rw [sum_range_succ] at h4
    have h5 : ∑ l ∈ range m, (t / m + e l / (2 * t)) = t + (∑ l ∈ range m, e l) / (2 * t) := by
      rw [sum_add_distrib, sum_const, card_range, nsmul_eq_mul, mul_div_cancel₀ _ hm0.ne', sum_div]
    linarith
  have hw2 : ∑ j ∈ range (n + 1), w j = 2 := by
    have := hR.exact 1 (by simp)
    simp only [eval_one, mul_one] at this
    rw [this]
    norm_num
  have hE : ∑ l ∈ range m, e l ≤ 8 * B ^ 2 := by
    have hweak := h.weak v h.pieces h.left h.right
    have hl : ∑ l ∈ range m, e l ≤ ∑ i ∈ range m, ∫ x in node m i..node m (i + 1),
        ((derivative (v i)).eval x * (derivative (v i)).eval x + kx ^ 2 * ((v i).eval x * (v i).eval x)) := by
      refine sum_le_sum fun i _ => intervalIntegral.integral_mono_on (node_lt hm i).le
        (((Polynomial.continuous _).pow 2).intervalIntegrable _ _)
        ((((Polynomial.continuous _).mul (Polynomial.continuous _)).add (continuous_const.mul ((Polynomial.continuous _).mul (Polynomial.continuous _)))).intervalIntegrable _ _)
        fun x _ => ?_
      have := mul_nonneg (sq_nonneg kx) (mul_self_nonneg ((v i).eval x))
      rw [sq]
      linarith
    rw [hweak] at hl
    have hr : ∑ i ∈ range m, ∑ j ∈ range (n + 1), w j / m * (g i j * (v i).eval (point m pts i j)) ≤
        ∑ i ∈ range m, ∑ j ∈ range (n + 1), w j / m * (B * (2 * B + (∑ l ∈ range m, e l) / (2 * (2 * B)))) := by
      refine sum_le_sum fun i hi => sum_le_sum fun j hj => ?_
      have hi := mem_range.1 hi
      have hj : j ≤ n := by simpa [Nat.lt_succ_iff] using hj
      refine mul_le_mul_of_nonneg_left ?_ (div_nonneg (hR.positive j hj).le hm0.le)
      refine (le_abs_self _).trans ?_
      rw [abs_mul]
      exact mul_le_mul (hg i hi j hj) (hall (2 * B) (by positivity) i hi _ (point_mem hm hR i hj)) (abs_nonneg _) hB.le
    have hs : ∑ i ∈ range m, ∑ j ∈ range (n + 1), w j / m * (B * (2 * B + (∑ l ∈ range m, e l) / (2 * (2 * B)))) = 4 * B ^ 2 + (∑ l ∈ range m, e l) / 2 := by
      simp only [← sum_mul, ← sum_div, hw2, sum_const, card_range, nsmul_eq_mul]
      field_simp
      ring
    rw [hs] at hr
    linarith
  intro i hi x hx
  refine (hall (2 * B) (by positivity) i hi x hx).trans ?_
  have : (∑ l ∈ range m, e l) / (2 * (2 * B)) ≤ 2 * B := by
    rw [div_le_iff₀ (by positivity)]
    nlinarith
  linarith

/-- Differences of Galerkin approximations. -/
theorem Galerkin.sub {kx a b a' b' : ℝ} {f g : ℕ → ℕ → ℝ} {u v : ℕ → ℝ[X]} (hu : Galerkin n m pts w kx a b f u) (hv : Galerkin n m pts w kx a' b' g v) :
    Galerkin n m pts w kx (a - a') (b - b') (fun i j => f i j - g i j) (fun i => u i - v i) where
  pieces := ⟨fun i hi => (natDegree_sub_le _ _).trans (max_le (hu.pieces.degree i hi) (hv.pieces.degree i hi)), fun i hi => by
    rw [eval_sub, eval_sub, hu.pieces.cont i hi, hv.pieces.cont i hi]⟩
  left := by rw [eval_sub, hu.left, hv.left]
  right := by rw [eval_sub, hu.right, hv.right]
  weak z hz h0 h1 := by
    have e1 := hu.weak z hz h0 h1
    have e2 := hv.weak z hz h0 h1
    have hc : ∀ (p q : ℝ[X]) (c d : ℝ), IntervalIntegrable (fun x => (derivative p).eval x * (derivative q).eval x + kx ^ 2 * (p.eval x * q.eval x)) MeasureTheory.volume c d :=
      fun p q c d => (((Polynomial.continuous _).mul (Polynomial.continuous _)).add
        (continuous_const.mul ((Polynomial.continuous _).mul (Polynomial.continuous _)))).intervalIntegrable _ _
    simp only [sub_mul, mul_sub, sum_sub_distrib]
    rw [← e1, ← e2, ← sum_sub_distrib]
    refine sum_congr rfl fun i _ => ?_
    rw [← intervalIntegral.integral_sub (hc _ _ _ _) (hc _ _ _ _)]
    refine intervalIntegral.integral_congr fun x _ => ?_
    simp only [derivative_sub, eval_sub]
    ring

/-- A polynomial with given second derivative and boundary values. -/
theorem exists_second (q : ℝ[X]) (a b : ℝ) : ∃ p : ℝ[X], derivative (derivative p) = q ∧ p.eval (-1) = a ∧ p.eval 1 = b ∧ p.natDegree ≤ q.natDegree + 2 := by
  have hanti : ∀ q : ℝ[X], ∃ p : ℝ[X], derivative p = q ∧ p.natDegree ≤ q.natDegree + 1 := fun q => by
    refine ⟨∑ i ∈ range (q.natDegree + 1), C (q.coeff i / (i + 1)) * X ^ (i + 1), ?_, ?_⟩
    · rw [Polynomial.derivative_sum]
      conv_rhs => rw [q.as_sum_range_C_mul_X_pow]
      refine sum_congr rfl fun i _ => ?_
      rw [derivative_C_mul_X_pow, Nat.add_sub_cancel]
      congr 2
      push_cast
      field_simp
    · refine natDegree_sum_le_of_forall_le _ _ fun i hi => (natDegree_C_mul_X_pow_le _ _).trans ?_
      have := mem_range.1 hi
      omega
  obtain ⟨r, hr, hrd⟩ := hanti q
  obtain ⟨s, hs, hsd⟩ := hanti r
  refine ⟨s + (C ((b - s.eval 1 - (a - s.eval (-1))) / 2) * X + C ((b - s.eval 1 + (a - s.eval (-1))) / 2)), ?_, ?_, ?_, ?_⟩
  · simp [hs, hr]
  · simp; ring
  · simp; ring
  · refine (natDegree_add_le _ _).trans (max_le (by omega) (natDegree_linear_le.trans (by omega)))

/-- A function which is zero at both ends is bounded by its second derivative. -/
theorem bound_second {d d1 d2 : ℝ → ℝ} (h1 : ∀ x ∈ Set.Icc (-1 : ℝ) 1, HasDerivAt d (d1 x) x) (h2 : ∀ x ∈ Set.Icc (-1 : ℝ) 1, HasDerivAt d1 (d2 x) x) {B : ℝ}
    (hB : ∀ x ∈ Set.Icc (-1 : ℝ) 1, |d2 x| ≤ B) (hl : d (-1) = 0) (hr : d 1 = 0) : ∀ x ∈ Set.Icc (-1 : ℝ) 1, |d x| ≤ B / 2 := by
  have hBp : 0 ≤ B := (abs_nonneg _).trans (hB 0 (by simp))
  have key : ∀ {d d1 d2 : ℝ → ℝ}, (∀ x ∈ Set.Icc (-1 : ℝ) 1, HasDerivAt d (d1 x) x) → (∀ x ∈ Set.Icc (-1 : ℝ) 1, HasDerivAt d1 (d2 x) x) →
      (∀ x ∈ Set.Icc (-1 : ℝ) 1, -B ≤ d2 x) → d (-1) = 0 → d 1 = 0 → ∀ x ∈ Set.Icc (-1 : ℝ) 1, d x ≤ B / 2 := by
    intro d d1 d2 h1 h2 hB hl hr x hx
    let g : ℝ → ℝ := fun x => d x - B * (1 - x ^ 2) / 2
    have hg1 : ∀ x ∈ Set.Icc (-1 : ℝ) 1, HasDerivAt g (d1 x + B * x) x := fun x hx => by
      have hq : HasDerivAt (fun x : ℝ => B * (1 - x ^ 2) / 2) (-(B * x)) x := by
        have := (((hasDerivAt_pow 2 x).const_sub 1).const_mul B).div_const 2
        refine this.congr_deriv ?_
        simp; ring
      exact ((h1 x hx).sub hq).congr_deriv (by ring)
    have hg2 : ∀ x ∈ Set.Icc (-1 : ℝ) 1, HasDerivAt (fun x => d1 x + B * x) (d2 x + B) x := fun x hx =>
      ((h2 x hx).add ((hasDerivAt_id x).const_mul B)).congr_deriv (by simp)
    have hconv : ConvexOn ℝ (Set.Icc (-1 : ℝ) 1) g := by
      refine convexOn_of_hasDerivWithinAt2_nonneg (convex_Icc _ _) (fun x hx => (hg1 x hx).continuousAt.continuousWithinAt)
        (f' := fun x => d1 x + B * x) (f'' := fun x => d2 x + B) (fun x hx => ?_) (fun x hx => ?_) fun x hx => ?_
      · exact (hg1 x (interior_subset hx)).hasDerivWithinAt
      · exact (hg2 x (interior_subset hx)).hasDerivWithinAt
      · have := hB x (interior_subset hx)
        linarith
    have hle := hconv.le_max_of_mem_Icc (x := -1) (y := 1) (by simp) (by simp) hx
    have hg0 : g x ≤ 0 := by
      refine hle.trans (le_of_eq ?_)
      simp [g, hl, hr]
    have : B * (1 - x ^ 2) / 2 ≤ B / 2 := by nlinarith [sq_nonneg x]
    have e : g x = d x - B * (1 - x ^ 2) / 2 := rfl
    linarith
  intro x hx
  refine abs_le.2 ⟨?_, key h1 h2 (fun x hx => (abs_le.1 (hB x hx)).1) hl hr x hx⟩
  have := key (d := fun x => -d x) (fun x hx => (h1 x hx).neg) (fun x hx => (h2 x hx).neg) (fun x hx => neg_le_neg (abs_le.1 (hB x hx)).2) (by simp [hl]) (by simp [hr]) x hx
  linarith

/-- Taylor's theorem for the second derivative. -/
theorem taylor_second {u : ℝ → ℝ} {k : ℕ} (hu : ContDiff ℝ (k + 2 + 1 : ℕ) u) {A : ℝ} (hd : ∀ x ∈ Set.Icc (-1 : ℝ) 1, |iteratedDeriv (k + 2 + 1) u x| ≤ A) :
    (∀ x, HasDerivAt u (deriv u x) x) ∧ (∀ x, HasDerivAt (deriv u) (iteratedDeriv 2 u x) x) ∧ ContinuousOn (iteratedDeriv 2 u) (Set.Icc (-1) 1) ∧
    ∃ q : ℝ[X], q.natDegree ≤ k ∧ ∀ x ∈ Set.Icc (-1 : ℝ) 1, |iteratedDeriv 2 u x - q.eval x| ≤ A * 2 ^ (k + 1) / k.factorial := by
  have hA : 0 ≤ A := (abs_nonneg _).trans (hd 0 (by simp))
  have c2 : ContDiff ℝ (k + 1 : ℕ) (iteratedDeriv 2 u) := by
    rw [iteratedDeriv_eq_iterate]
    exact ContDiff.iterate_deriv' (k + 1) 2 (hu.of_le (by norm_cast))
  have h1 : ∀ x, HasDerivAt u (deriv u x) x := fun x => ((hu.differentiable (by norm_cast)) x).hasDerivAt
  have h2 : ∀ x, HasDerivAt (deriv u) (iteratedDeriv 2 u x) x := fun x => by
    have hd1 : ContDiff ℝ (k + 2 : ℕ) (deriv u) := by
      have : ContDiff ℝ ((k + 2 : ℕ) + 1) u := hu.of_le (by norm_cast)
      exact (contDiff_succ_iff_deriv.1 this).2.2
    rw [iteratedDeriv_succ, iteratedDeriv_one]
    exact ((hd1.differentiable (by norm_cast)) x).hasDerivAt
  have hsub : UniqueDiffOn ℝ (Set.Icc (-1 : ℝ) 1) := uniqueDiffOn_Icc (by norm_num)
  have hit : ∀ x ∈ Set.Icc (-1 : ℝ) 1, iteratedDerivWithin (k + 1) (iteratedDeriv 2 u) (Set.Icc (-1) 1) x = iteratedDeriv (k + 2 + 1) u x := fun x hx => by
    rw [iteratedDerivWithin_eq_iteratedDeriv hsub c2.contDiffAt hx, iteratedDeriv_eq_iterate, iteratedDeriv_eq_iterate, iteratedDeriv_eq_iterate,
      ← Function.iterate_add_apply]
  let q : ℝ[X] := ∑ i ∈ range (k + 1), C (((i.factorial : ℝ)⁻¹) * iteratedDerivWithin i (iteratedDeriv 2 u) (Set.Icc (-1) 1) (-1)) * (X - C (-1)) ^ i
  have hqe : ∀ x, q.eval x = taylorWithinEval (iteratedDeriv 2 u) k (Set.Icc (-1) 1) (-1) x := fun x => by
    rw [taylor_within_apply, eval_finsetSum]
    refine sum_congr rfl fun i _ => ?_
    simp only [eval_mul, eval_C, eval_pow, eval_sub, eval_X, smul_eq_mul]
    ring
  have hqd : q.natDegree ≤ k := by
    have : q.natDegree ≤ k := natDegree_sum_le_of_forall_le _ _ fun i hi => by
      refine (natDegree_C_mul_le _ _).trans ((natDegree_pow_le).trans ?_)
      rw [natDegree_X_sub_C]
      have := mem_range.1 hi
      omega
    omega
  have hb : ∀ x ∈ Set.Icc (-1 : ℝ) 1, |iteratedDeriv 2 u x - q.eval x| ≤ A * 2 ^ (k + 1) / k.factorial := fun x hx => by
    have := taylor_mean_remainder_bound (by norm_num : (-1 : ℝ) ≤ 1) (by exact_mod_cast c2.contDiffOn) hx (C := A) (n := k) fun y hy => by
      rw [hit y hy]; exact hd y hy
    rw [hqe, ← Real.norm_eq_abs]
    refine this.trans ?_
    have : (x - -1) ^ (k + 1) ≤ (2 : ℝ) ^ (k + 1) := pow_le_pow_left₀ (by linarith [hx.1]) (by linarith [hx.2]) _
    gcongr
  exact ⟨h1, h2, c2.continuous.continuousOn, q, hqd, hb⟩

end SpectralDNS.Leg

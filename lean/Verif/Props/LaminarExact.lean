import Verif.Model.Laminar
import Mathlib.NumberTheory.ZetaValues
import Mathlib.Analysis.SpecialFunctions.ExpDeriv
import Mathlib.Analysis.SpecialFunctions.Trigonometric.Deriv

/-!
# C74: the analytical solutions of demo/LaminarChannel.py
-/

namespace SpectralDNS.Laminar

open Real Finset Filter

/-- The frequencies `(2m+1) pi/2` of the cosines vanishing at both walls. -/
noncomputable def lam (m : ℕ) : ℝ := (2 * m + 1) * π / 2

theorem lam_pos (m : ℕ) : 0 < lam m := by unfold lam; positivity

/-- One decaying cosine, with its sign. -/
noncomputable def mode (nu t x : ℝ) (m : ℕ) : ℝ := (-1) ^ m * cos (lam m * x) * exp (-nu * lam m ^ 2 * t) / lam m ^ 3

theorem exact_fold (nu t x : ℝ) (n : ℕ) : (List.range' 1 n 2).foldl (exactBody nu t x) 0 = -∑ m ∈ range (2 * n), mode nu t x m := by
  induction n with
  | zero => simp
  | succ n ih =>
    rw [List.range'_concat, List.foldl_append, ih, show 2 * (n + 1) = 2 * n + 1 + 1 by ring, sum_range_succ, sum_range_succ]
    have h1 : (2 * ((1 + 2 * n : ℕ) : ℝ) - 1) * π / 2 = lam (2 * n) := by unfold lam; push_cast; ring
    have h2 : (2 * (((1 + 2 * n : ℕ) : ℝ) + 1) - 1) * π / 2 = lam (2 * n + 1) := by unfold lam; push_cast; ring
    simp only [List.foldl_cons, List.foldl_nil, exactBody, h1, h2, mode]
    have e1 : (-1 : ℝ) ^ (2 * n) = 1 := by rw [pow_mul]; simp
    have e2 : (-1 : ℝ) ^ (2 * n + 1) = -1 := by rw [pow_succ, e1]; ring
    rw [e1, e2]; ring

theorem exact_eq (nu x Re t : ℝ) (n : ℕ) :
    exact nu x Re t n = 1 / (nu * Re) * (1 - x ^ 2) - 4 / (nu * Re) * ∑ m ∈ range (2 * n), mode nu t x m := by
  rw [exact, exact_fold]
  have : (2 * (2 / Re)) / nu = 4 / (nu * Re) := by rw [mul_div_assoc', div_div, mul_comm Re]; norm_num
  rw [this]
  have : 2 / Re / 2 / nu = 1 / (nu * Re) := by
    rw [div_right_comm, div_right_comm 2 Re, div_right_comm (2 / nu), div_right_comm 2 nu, div_self (two_ne_zero' ℝ), div_div]
  rw [this]; ring

/-- Derivatives of one decaying cosine. -/
theorem mode_dx (nu t x : ℝ) (m : ℕ) : HasDerivAt (fun x => mode nu t x m)
    ((-1) ^ m * (-sin (lam m * x) * lam m) * exp (-nu * lam m ^ 2 * t) / lam m ^ 3) x := by
  have h : HasDerivAt (fun x => lam m * x) (lam m) x := by simpa using (hasDerivAt_id x).const_mul (lam m)
  exact ((h.cos.const_mul _).mul_const _).div_const _

theorem mode_dxx (nu t x : ℝ) (m : ℕ) : HasDerivAt (fun x => (-1) ^ m * (-sin (lam m * x) * lam m) * exp (-nu * lam m ^ 2 * t) / lam m ^ 3)
    (-lam m ^ 2 * mode nu t x m) x := by
  have h : HasDerivAt (fun x => lam m * x) (lam m) x := by simpa using (hasDerivAt_id x).const_mul (lam m)
  refine ((((h.sin.neg.mul_const (lam m)).const_mul _).mul_const _).div_const _).congr_deriv ?_
  unfold mode; ring

theorem mode_dt (nu t x : ℝ) (m : ℕ) : HasDerivAt (fun t => mode nu t x m) (nu * (-lam m ^ 2 * mode nu t x m)) t := by
  have h : HasDerivAt (fun t => -nu * lam m ^ 2 * t) (-nu * lam m ^ 2) t := by
    have := (hasDerivAt_id t).const_mul (-nu * lam m ^ 2)
    rw [mul_one] at this
    exact this
  refine ((h.exp.const_mul _).div_const _).congr_deriv ?_
  unfold mode; ring

/-- C74, equation: for every number of terms, `exact` solves `u_t = nu u_xx + 2/Re`. -/
theorem C74_exact_equation (nu Re : ℝ) (hnu : nu ≠ 0) (n : ℕ) : ∃ ux uxx : ℝ → ℝ → ℝ,
    (∀ t x, HasDerivAt (fun x => exact nu x Re t n) (ux t x) x) ∧ (∀ t x, HasDerivAt (ux t) (uxx t x) x) ∧
    ∀ t x, HasDerivAt (fun t => exact nu x Re t n) (nu * uxx t x + 2 / Re) t := by
  refine ⟨fun t x => 1 / (nu * Re) * (-(2 * x)) - 4 / (nu * Re) *
      ∑ m ∈ range (2 * n), (-1) ^ m * (-sin (lam m * x) * lam m) * exp (-nu * lam m ^ 2 * t) / lam m ^ 3,
    fun t x => 1 / (nu * Re) * (-2) - 4 / (nu * Re) * ∑ m ∈ range (2 * n), -lam m ^ 2 * mode nu t x m, ?_, ?_, ?_⟩
  · intro t x
    simp only [exact_eq]
    have h : HasDerivAt (fun x : ℝ => 1 - x ^ 2) (-(2 * x)) x := by simpa using (hasDerivAt_pow 2 x).const_sub 1
    exact (h.const_mul _).sub ((HasDerivAt.fun_sum fun m _ => mode_dx nu t x m).const_mul _)
  · intro t x
    have h : HasDerivAt (fun x : ℝ => -(2 * x)) (-2) x := by
      have := ((hasDerivAt_id x).const_mul (2 : ℝ)).neg
      rw [mul_one] at this
      exact this
    exact (h.const_mul _).sub ((HasDerivAt.fun_sum fun m _ => mode_dxx nu t x m).const_mul _)
  · intro t x
    simp only [exact_eq]
    have h := ((HasDerivAt.fun_sum fun m (_ : m ∈ range (2 * n)) => mode_dt nu t x m).const_mul (4 / (nu * Re))).const_sub
      (1 / (nu * Re) * (1 - x ^ 2))
    refine h.congr_deriv ?_
    rw [← mul_sum]
    by_cases hRe : Re = 0
    · simp [hRe]
    · field_simp
      ring

theorem cos_lam (m : ℕ) : cos (lam m) = 0 := by
  rw [show lam m = m * π + π / 2 by unfold lam; ring, cos_add_pi_div_two, sin_nat_mul_pi, neg_zero]

/-- C74, walls: `exact` vanishes at both walls at all times. -/
theorem C74_exact_walls (nu Re t : ℝ) (n : ℕ) : exact nu 1 Re t n = 0 ∧ exact nu (-1) Re t n = 0 := by
  simp [exact_eq, mode, cos_lam]

theorem bernoulli3 (y : ℝ) : (Polynomial.map (algebraMap ℚ ℝ) (Polynomial.bernoulli 3)).eval y = y ^ 3 - 3 / 2 * y ^ 2 + 1 / 2 * y := by
  have b1 : bernoulli 1 = -1 / 2 := bernoulli_one
  have b2 : bernoulli 2 = 6⁻¹ := bernoulli_two
  have b3 : bernoulli 3 = 0 := by rw [bernoulli_eq_bernoulli'_of_ne_one (by norm_num), bernoulli'_three]
  have c : Nat.choose 3 2 = 3 := by decide
  have : Polynomial.bernoulli 3 = Polynomial.X ^ 3 - Polynomial.C (3 / 2) * Polynomial.X ^ 2 + Polynomial.C (1 / 2) * Polynomial.X := by
    rw [Polynomial.bernoulli, sum_range_succ, sum_range_succ, sum_range_succ, sum_range_one]
    simp only [b1, b2, b3, bernoulli_zero, c]
    refine Polynomial.funext fun x => ?_
    simp [Polynomial.eval_monomial]
    ring
  rw [this]
  simp

/-- `sum_n sin(2 pi n y)/n^3`. -/
theorem sines {y : ℝ} (h0 : 0 ≤ y) (h1 : y ≤ 1) :
    HasSum (fun n : ℕ => 1 / (n : ℝ) ^ 3 * sin (2 * π * n * y)) (2 * π ^ 3 / 3 * (y ^ 3 - 3 / 2 * y ^ 2 + 1 / 2 * y)) := by
  have h := hasSum_one_div_nat_pow_mul_sin one_ne_zero (x := y) ⟨h0, h1⟩
  simp only [mul_one, Nat.reduceAdd] at h
  rw [bernoulli3] at h
  convert h using 1
  have : ((Nat.factorial 3 : ℕ) : ℝ) = 6 := by norm_num [Nat.factorial]
  rw [this]; ring

theorem even_sines {y : ℝ} (h0 : 0 ≤ y) (h1 : y ≤ 1 / 2) :
    HasSum (fun n : ℕ => 1 / ((2 * n : ℕ) : ℝ) ^ 3 * sin (2 * π * (2 * n : ℕ) * y))
      (1 / 8 * (2 * π ^ 3 / 3 * ((2 * y) ^ 3 - 3 / 2 * (2 * y) ^ 2 + 1 / 2 * (2 * y)))) := by
  have h := (sines (y := 2 * y) (by linarith) (by linarith)).mul_left (1 / 8)
  have e : (fun n : ℕ => 1 / ((2 * n : ℕ) : ℝ) ^ 3 * sin (2 * π * (2 * n : ℕ) * y)) =
      fun n : ℕ => 1 / 8 * (1 / (n : ℝ) ^ 3 * sin (2 * π * n * (2 * y))) := by
    funext n
    push_cast
    rw [show 2 * π * (2 * (n : ℝ)) * y = 2 * π * n * (2 * y) by ring, mul_pow, ← one_div_mul_one_div, mul_assoc]
    norm_num
  rw [e]
  exact h

theorem odd_sines {y : ℝ} (h0 : 0 ≤ y) (h1 : y ≤ 1 / 2) :
    HasSum (fun m : ℕ => sin (2 * π * (2 * m + 1) * y) / (2 * (m : ℝ) + 1) ^ 3) (π ^ 3 / 4 * (y * (1 - 2 * y))) := by
  have hs := sines h0 (show y ≤ 1 by linarith)
  have h3 : Summable (fun n : ℕ => 1 / ((2 * n + 1 : ℕ) : ℝ) ^ 3 * sin (2 * π * (2 * n + 1 : ℕ) * y)) :=
    hs.summable.comp_injective (i := fun n => 2 * n + 1) fun a b h => by simpa using h
  have h4 := HasSum.unique (HasSum.even_add_odd (f := fun n : ℕ => 1 / (n : ℝ) ^ 3 * sin (2 * π * n * y)) (even_sines h0 h1) h3.hasSum) hs
  have h5 := h3.hasSum
  have e : (fun m : ℕ => sin (2 * π * (2 * m + 1) * y) / (2 * (m : ℝ) + 1) ^ 3) =
      fun n : ℕ => 1 / ((2 * n + 1 : ℕ) : ℝ) ^ 3 * sin (2 * π * (2 * n + 1 : ℕ) * y) := by
    funext m; push_cast; ring
  rw [e]
  have h6 : ∑' n : ℕ, 1 / ((2 * n + 1 : ℕ) : ℝ) ^ 3 * sin (2 * π * (2 * n + 1 : ℕ) * y) = π ^ 3 / 4 * (y * (1 - 2 * y)) := by
    generalize (∑' n : ℕ, 1 / ((2 * n + 1 : ℕ) : ℝ) ^ 3 * sin (2 * π * (2 * n + 1 : ℕ) * y)) = z at h4 ⊢
    linear_combination h4
  rw [h6] at h5
  exact h5

theorem mode_start (nu x : ℝ) (m : ℕ) : mode nu 0 x m = 8 / π ^ 3 * (sin (2 * π * (2 * m + 1) * ((x + 1) / 4)) / (2 * (m : ℝ) + 1) ^ 3) := by
  have h : sin (2 * π * (2 * m + 1) * ((x + 1) / 4)) = (-1) ^ m * cos (lam m * x) := by
    rw [show 2 * π * (2 * m + 1) * ((x + 1) / 4) = lam m * x + π / 2 + m * π by unfold lam; ring, sin_add_nat_mul_pi, sin_add_pi_div_two]
  rw [h, mode]
  have h0 : (2 * (m : ℝ) + 1) ≠ 0 := by positivity
  have hp := pi_ne_zero
  simp only [lam, mul_zero, exp_zero]
  field_simp
  ring

/-- C74, start: at time zero the series gives fluid at rest, everywhere in the channel. -/
theorem C74_exact_start (nu Re x : ℝ) (h0 : -1 ≤ x) (h1 : x ≤ 1) : Tendsto (fun n => exact nu x Re 0 n) atTop (nhds 0) := by
  have h := (odd_sines (y := (x + 1) / 4) (by linarith) (by linarith)).mul_left (8 / π ^ 3)
  simp only [← mode_start nu] at h
  have h2 := (h.tendsto_sum_nat.comp (tendsto_id.const_mul_atTop' (show 0 < 2 by norm_num))).const_mul (4 / (nu * Re)) |>.const_sub
    (1 / (nu * Re) * (1 - x ^ 2))
  simp only [exact_eq]
  have hp := pi_ne_zero
  have e : 1 / (nu * Re) * (1 - x ^ 2) - 4 / (nu * Re) * (8 / π ^ 3 * (π ^ 3 / 4 * ((x + 1) / 4 * (1 - 2 * ((x + 1) / 4))))) = 0 := by
    field_simp
    ring
  rw [e] at h2
  exact h2

/-- C74, steady state: the solution tends to the parabolic profile. -/
theorem C74_exact_steady (nu Re x : ℝ) (hnu : 0 < nu) (n : ℕ) :
    Tendsto (fun t => exact nu x Re t n) atTop (nhds ((1 - x ^ 2) / (nu * Re))) := by
  simp only [exact_eq]
  have h : Tendsto (fun t => ∑ m ∈ range (2 * n), mode nu t x m) atTop (nhds (∑ m ∈ range (2 * n), 0)) := by
    refine tendsto_finsetSum _ fun m _ => ?_
    have h1 : Tendsto (fun t => exp (-nu * lam m ^ 2 * t)) atTop (nhds 0) := by
      refine tendsto_exp_atBot.comp ?_
      refine tendsto_id.const_mul_atTop_of_neg ?_
      have := mul_pos hnu (pow_pos (lam_pos m) 2)
      linarith
    have h2 := (h1.const_mul ((-1) ^ m * cos (lam m * x))).div_const (lam m ^ 3)
    simpa [mode] using h2
  have h3 := (h.const_mul (4 / (nu * Re))).const_sub (1 / (nu * Re) * (1 - x ^ 2))
  convert h3 using 2
  simp
  ring

theorem reference_fold (Re t : ℝ) (n : ℕ) :
    (List.range' 1 n 2).foldl (referenceBody Re t) (1, 1) = (1 - 4 * ∑ m ∈ range n, mode (1 / Re) t 0 m, (-1) ^ n) := by
  induction n with
  | zero => simp
  | succ n ih =>
    rw [List.range'_concat, List.foldl_append, ih, sum_range_succ]
    have hp := pi_ne_zero
    have h0 : (2 * (n : ℝ) + 1) ≠ 0 := by positivity
    have hb : -(0.25 / Re * π ^ 2 * ((1 + 2 * n : ℕ) : ℝ) ^ 2) * t = -(1 / Re) * lam n ^ 2 * t := by
      unfold lam; push_cast; ring
    have ha : 32 / (π ^ 3 * ((1 + 2 * n : ℕ) : ℝ) ^ 3) = 4 / lam n ^ 3 := by
      unfold lam; push_cast
      rw [show (1 + 2 * (n : ℝ)) = 2 * n + 1 by ring]
      field_simp; norm_num
    simp only [List.foldl_cons, List.foldl_nil, referenceBody, hb, ha, mode, mul_zero, cos_zero]
    refine Prod.ext ?_ ?_
    · simp only; ring
    · simp only; ring

/-- C74: `reference` is `exact` in the middle of the channel, with two terms for each of its, when `nu = 1/Re` (the demo's choice). -/
theorem C74_reference (Re t : ℝ) (hRe : Re ≠ 0) (n : ℕ) : reference Re t (2 * n) = exact (1 / Re) 0 Re t n := by
  rw [reference, reference_fold, exact_eq]
  field_simp
  ring

/-- The demo's numbers: `Re = 800`, 400 pairs of terms. -/
example (t : ℝ) : reference 800 t 800 = exact (1 / 800) 0 800 t 400 := C74_reference 800 t (by norm_num) 400
example : Tendsto (fun n => exact (1 / 800) (1 / 2) 800 0 n) atTop (nhds 0) := C74_exact_start _ _ _ (by norm_num) (by norm_num)
example : Tendsto (fun t => exact (1 / 800) 0 800 t 400) atTop (nhds 1) := by
  have := C74_exact_steady (1 / 800) 800 0 (by norm_num) 400
  norm_num at this ⊢
  exact this

end SpectralDNS.Laminar
